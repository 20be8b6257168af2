import Verif.Proofs.ChunkerUsed
import Verif.Spec.TrajWriter
namespace Verif
namespace TrajWriter
open Chunker (Row Used Moves Held ident)

/-- The chunkers of the columns, to which `rows` were appended. -/
structure Cols (g : Nat → Nat → Key) (m : AMap Nat Chunker) (rows : Nat → List Row) : Prop where
  used : ∀ i c, m.get? i = some c → c.Used (rows i) ∧ c.keyGen = g i
  none : ∀ i, m.get? i = none → rows i = []

/-- What stays when chunkers change. -/
def MMoves (m m' : AMap Nat Chunker) (reset : Bool) : Prop :=
  ∀ i c, m.get? i = some c → ∃ c', m'.get? i = some c' ∧ Moves c c' reset

/-- More rows. -/
def Grows (rows rows' : Nat → List Row) : Prop := ∀ i, rows i <+: rows' i

theorem Grows.refl (rows : Nat → List Row) : Grows rows rows := fun _ => List.prefix_refl _

theorem Grows.trans {a b c : Nat → List Row} (h : Grows a b) (g : Grows b c) : Grows a c := fun i => (h i).trans (g i)

theorem MMoves.refl (m : AMap Nat Chunker) (b : Bool) : MMoves m m b := fun _ c h => ⟨c, h, Moves.refl c b⟩

theorem MMoves.trans {a b c : AMap Nat Chunker} {r s : Bool} (h : MMoves a b r) (g : MMoves b c s) : MMoves a c (r || s) := by
  intro i x hx
  obtain ⟨y, h1, h2⟩ := h i x hx
  obtain ⟨z, g1, g2⟩ := g i y h1
  exact ⟨z, g1, h2.trans g2⟩

theorem MMoves.trans' {a b c : AMap Nat Chunker} {r : Bool} (h : MMoves a b r) (g : MMoves b c r) : MMoves a c r := by
  have := h.trans g
  simpa using this

/-- The rows after something was appended to column `i`. -/
def addRows (rows : Nat → List Row) (i : Nat) (l : List Row) : Nat → List Row := fun j => if j = i then rows i ++ l else rows j

theorem grows_add (rows : Nat → List Row) (i : Nat) (l : List Row) : Grows rows (addRows rows i l) := by
  intro j
  unfold addRows
  split
  · rename_i h; subst h; exact List.prefix_append _ _
  · exact List.prefix_refl _

/-- One call of one chunker. -/
theorem Cols.step {g : Nat → Nat → Key} {m : AMap Nat Chunker} {rows : Nat → List Row} (h : Cols g m rows) {i : Nat} {c : Chunker}
    (hc : m.get? i = some c) {op : Chunker.Op} (hv : op.Valid) :
    Cols g (m.insert i (c.step op).1) (addRows rows i (op.accepted (c.step op).2)) ∧
      MMoves m (m.insert i (c.step op).1) op.isReset ∧ (c.step op).2 ≠ .died := by
  obtain ⟨hu, hg⟩ := h.used i c hc
  obtain ⟨h1, h2, h3, h4⟩ := hu.step hv
  refine ⟨⟨fun j c' hj => ?_, fun j hj => ?_⟩, fun j c' hj => ?_, h3⟩
  · rw [AMap.get?_insert] at hj
    unfold addRows
    split at hj
    · rename_i he
      subst he
      cases hj
      simp only [if_true]
      exact ⟨h1, h2.keyGen.trans hg⟩
    · rename_i he
      simp only [he, if_false]
      exact h.used j c' hj
  · rw [AMap.get?_insert] at hj
    split at hj
    · cases hj
    · rename_i he
      simp only [addRows, he, if_false]
      exact h.none j hj
  · rw [AMap.get?_insert]
    by_cases he : j = i
    · subst he
      rw [hc] at hj
      cases hj
      exact ⟨_, by simp, h2⟩
    · exact ⟨c', by simp [he, hj], Moves.refl _ _⟩

theorem validate_iff (o : ChunkerOpts) : o.validate = .ok () ↔ 0 < o.maxLen ∧ 0 < o.keep ∧ o.maxLen ≤ o.keep := by
  unfold ChunkerOpts.validate
  by_cases h1 : o.maxLen ≤ 0
  · rw [if_pos h1]; simp; omega
  · by_cases h2 : o.keep ≤ 0
    · rw [if_neg h1, if_pos h2]; simp; omega
    · by_cases h3 : o.keep < o.maxLen
      · rw [if_neg h1, if_neg h2, if_pos h3]; simp; omega
      · rw [if_neg h1, if_neg h2, if_neg h3]; simp; omega

theorem clone_valid {o : ChunkerOpts} (h : o.validate = .ok ()) : o.clone.validate = .ok () ∧ Chunker.Op.Valid (.configure o.clone) := by
  rw [validate_iff] at h ⊢
  cases o with
  | constant m k d => exact ⟨h, trivial⟩
  | auto a =>
    simp only [ChunkerOpts.maxLen, ChunkerOpts.keep, ChunkerOpts.clone, AutoTuned.new] at h ⊢
    exact ⟨by omega, rfl, rfl⟩

/-- The options in use are valid. -/
def OptsOK (w : TrajWriter) : Prop := w.opts.validate = .ok () ∧ ∀ i o, w.overrides.get? i = some o → o.validate = .ok ()

theorem OptsOK.get {w : TrajWriter} (h : w.OptsOK) (i : Nat) : ((w.overrides.get? i).getD w.opts).validate = .ok () := by
  cases ho : w.overrides.get? i with
  | none => exact h.1
  | some o => exact h.2 i o ho

theorem new_started {o : ChunkerOpts} (h : o.validate = .ok ()) (hf : Chunker.Op.Valid (.configure o)) {gen : Nat → Key}
    (hg : ∀ i j, gen i = gen j → i = j) (dt : DType) (sh : List Nat) :
    ∃ c, Chunker.new dt sh o gen = .ok c ∧ c.Started ∧ c.keyGen = gen ∧ c.opts = o ∧ c.dtype = dt ∧ c.shape = sh := by
  have hgood := (ChunkerOpts.good_of h hf).le
  have hn : Chunker.new dt sh o gen = .ok ⟨dt, sh, o, gen, 0, [], 0, [], []⟩ := by rw [Chunker.new, if_neg (by omega)]
  exact ⟨⟨dt, sh, o, gen, 0, [], 0, [], []⟩, hn, ⟨h, hf, hg, hn⟩, rfl, rfl, rfl, rfl⟩

/-- `addChunkers`. -/
theorem addChunkers_ok (hinj : ∀ i j m n, g i m = g j n → i = j ∧ m = n) : ∀ {data : List (Option Tensor)} {w : TrajWriter} {i : Nat}
    {rows : Nat → List Row}, w.colGen = g → w.OptsOK → Cols g w.chunkers rows →
    ∃ m', w.addChunkers i data = ({ w with chunkers := m' }, .ok ()) ∧ Cols g m' rows ∧ MMoves w.chunkers m' false ∧
      ∀ j t, data[j]? = some (some t) → ∃ c, m'.get? (i + j) = some c
  | [], w, i, rows, _, _, hc => ⟨w.chunkers, rfl, hc, MMoves.refl _ _, by simp⟩
  | none :: data, w, i, rows, hg, ho, hc => by
    obtain ⟨m', h1, h2, h3, h4⟩ := addChunkers_ok hinj (data := data) (i := i + 1) hg ho hc
    refine ⟨m', h1, h2, h3, fun j t hj => ?_⟩
    cases j with
    | zero => simp at hj
    | succ j => rw [show i + (j + 1) = i + 1 + j by omega]; exact h4 j t (by simpa using hj)
  | some t :: data, w, i, rows, hg, ho, hc => by
    unfold addChunkers
    cases hi : w.chunkers.get? i with
    | some c =>
      obtain ⟨m', h1, h2, h3, h4⟩ := addChunkers_ok hinj (data := data) (i := i + 1) hg ho hc
      refine ⟨m', h1, h2, h3, fun j t' hj => ?_⟩
      cases j with
      | zero => obtain ⟨c', h5, _⟩ := h3 i c hi; exact ⟨c', h5⟩
      | succ j => rw [show i + (j + 1) = i + 1 + j by omega]; exact h4 j t' (by simpa using hj)
    | none =>
      obtain ⟨hcv, hcf⟩ := clone_valid (ho.get i)
      obtain ⟨c, hn, hst, hkg, _⟩ := new_started hcv hcf (gen := w.colGen i) (fun a b hab => (hinj i i a b (by rw [← hg]; exact hab)).2)
        t.dtype t.shape
      simp only [hn]
      have hc' : Cols g (w.chunkers.insert i c) rows := by
        refine ⟨fun j c' hj => ?_, fun j hj => ?_⟩
        · rw [AMap.get?_insert] at hj
          split at hj
          · rename_i he
            subst he
            cases hj
            rw [hc.none j hi]
            exact ⟨hst.used, by rw [hkg, hg]⟩
          · exact hc.used j c' hj
        · rw [AMap.get?_insert] at hj
          split at hj
          · cases hj
          · exact hc.none j hj
      have hm' : MMoves w.chunkers (w.chunkers.insert i c) false := by
        intro j c' hj
        refine ⟨c', ?_, Moves.refl _ _⟩
        rw [AMap.get?_insert, if_neg (by intro he; subst he; rw [hi] at hj; cases hj)]
        exact hj
      obtain ⟨m', h1, h2, h3, h4⟩ := addChunkers_ok hinj (data := data) (w := { w with chunkers := w.chunkers.insert i c }) (i := i + 1) hg
        ho hc'
      refine ⟨m', h1, h2, hm'.trans' h3, fun j t' hj => ?_⟩
      cases j with
      | zero => obtain ⟨c', h5, _⟩ := h3 i c (by simp); exact ⟨c', h5⟩
      | succ j => rw [show i + (j + 1) = i + 1 + j by omega]; exact h4 j t' (by simpa using hj)

theorem append_step (c : Chunker) (t : Tensor) (e : Key) (s : Int) :
    (c.step (.append t e s)).1 = (c.append t e s).1 ∧ ((c.append t e s).2 = .died ↔ (c.step (.append t e s)).2 = .died) ∧
      (∀ i, (c.append t e s).2 = .ok i ↔ (c.step (.append t e s)).2 = .ok (some i)) ∧
      (∀ i, (c.append t e s).2 = .ok i → (Chunker.Op.append t e s).accepted (c.step (.append t e s)).2 = [⟨t, e, s⟩]) ∧
      (∀ k, (c.append t e s).2 = .err k → (Chunker.Op.append t e s).accepted (c.step (.append t e s)).2 = []) := by
  simp only [Chunker.step]
  rcases c.append t e s with ⟨c', _ | _ | _⟩ <;> simp [Chunker.Op.accepted]

/-- `appendAll`. -/
theorem appendAll_ok : ∀ {data : List (Option Tensor)} {w : TrajWriter} {i : Nat} {rows : Nat → List Row}, Cols g w.chunkers rows →
    (∀ t, some t ∈ data → t.WF) → (∀ j t, data[j]? = some (some t) → ∃ c, w.chunkers.get? (i + j) = some c) →
    ∃ m' rows', (w.appendAll i data).1 = { w with chunkers := m' } ∧ Cols g m' rows' ∧ MMoves w.chunkers m' false ∧ Grows rows rows' ∧
      (w.appendAll i data).2 ≠ .died ∧ ∀ refs, (w.appendAll i data).2 = .ok refs → refs.length = data.length ∧
        ∀ (j : Nat) (r : Ref), refs[j]? = some (some r) → ∃ t, data[j]? = some (some t) ∧ r.col = i + j ∧
          (rows' (i + j))[r.id]? = some ⟨t, w.episode, w.step⟩
  | [], w, i, rows, hc, _, _ => ⟨w.chunkers, rows, rfl, hc, MMoves.refl _ _, Grows.refl _, by simp [appendAll], by
      intro refs h; simp [appendAll] at h; subst h; simp⟩
  | none :: data, w, i, rows, hc, hwf, hall => by
    obtain ⟨m', rows', h1, h2, h3, h4, h5, h6⟩ := appendAll_ok (data := data) (i := i + 1) hc
      (fun t ht => hwf t (List.mem_cons_of_mem _ ht)) (fun j t hj => by
        have := hall (j + 1) t (by simpa using hj); rwa [show i + (j + 1) = i + 1 + j by omega] at this)
    have he : (w.appendAll i (none :: data)).1 = (w.appendAll (i + 1) data).1 := by
      rw [appendAll]; rcases w.appendAll (i + 1) data with ⟨w', _ | _ | _⟩ <;> rfl
    refine ⟨m', rows', he.trans h1, h2, h3, h4, ?_, fun refs hrefs => ?_⟩
    · rw [appendAll]
      rcases hx : w.appendAll (i + 1) data with ⟨w', _ | _ | _⟩ <;> simp [hx] at h5 ⊢
    · rw [appendAll] at hrefs
      rcases hx : w.appendAll (i + 1) data with ⟨w', refs' | _ | _⟩ <;> simp only [hx, reduceCtorEq, Res.ok.injEq] at hrefs
      subst hrefs
      obtain ⟨k1, k2⟩ := h6 refs' (by rw [hx])
      refine ⟨by simp [k1], fun j r hj => ?_⟩
      cases j with
      | zero => simp at hj
      | succ j =>
        obtain ⟨t, l1, l2, l3⟩ := k2 j r (by simpa using hj)
        rw [show i + (j + 1) = i + 1 + j by omega]
        exact ⟨t, by simpa using l1, l2, l3⟩
  | some t :: data, w, i, rows, hc, hwf, hall => by
    obtain ⟨c, hci⟩ := hall 0 t rfl
    rw [Nat.add_zero] at hci
    have htwf : (Chunker.Op.append t w.episode w.step).Valid := hwf t List.mem_cons_self
    obtain ⟨a1, a2, a3, a4, a5⟩ := append_step c t w.episode w.step
    obtain ⟨b1, b2, b3⟩ := hc.step hci htwf
    rw [a1] at b1 b2
    have hlen := (hc.used i c hci).1
    have hst := hlen.step htwf
    rcases hx : c.append t w.episode w.step with ⟨c', id | e | _⟩
    · rw [hx] at b1 b2
      obtain ⟨m', rows', h1, h2, h3, h4, h5, h6⟩ := appendAll_ok (data := data) (w := { w with chunkers := w.chunkers.insert i c' })
        (i := i + 1) b1 (fun t ht => hwf t (List.mem_cons_of_mem _ ht)) (fun j t hj => by
          obtain ⟨c2, hc2⟩ := hall (j + 1) t (by simpa using hj)
          obtain ⟨c3, hc3, _⟩ := b2 _ c2 hc2
          rw [show i + (j + 1) = i + 1 + j by omega] at hc3
          exact ⟨c3, hc3⟩)
      have hid : id = (rows i).length := by
        refine hst.2.2.2 id ((a3 id).mp (by rw [hx]))
      have hacc : (Chunker.Op.append t w.episode w.step).accepted (c.step (.append t w.episode w.step)).2 = [⟨t, w.episode, w.step⟩] := a4 id (by rw [hx])
      rw [hacc] at h4
      refine ⟨m', rows', ?_, h2, b2.trans' h3, (grows_add rows i _).trans h4, ?_, fun refs hrefs => ?_⟩
      · rw [appendAll]
        simp only [hci, hx]
        rcases hy : appendAll { w with chunkers := w.chunkers.insert i c' } (i + 1) data with ⟨w', _ | _ | _⟩ <;>
          (rw [hy] at h1; simpa using h1)
      · rw [appendAll]
        simp only [hci, hx]
        rcases hy : appendAll { w with chunkers := w.chunkers.insert i c' } (i + 1) data with ⟨w', _ | _ | _⟩ <;> simp [hy] at h5 ⊢
      · rw [appendAll] at hrefs
        simp only [hci, hx] at hrefs
        rcases hy : appendAll { w with chunkers := w.chunkers.insert i c' } (i + 1) data with ⟨w', refs' | _ | _⟩ <;>
          simp only [hy, reduceCtorEq, Res.ok.injEq] at hrefs
        subst hrefs
        obtain ⟨k1, k2⟩ := h6 refs' (by rw [hy])
        refine ⟨by simp [k1], fun j r hj => ?_⟩
        cases j with
        | zero =>
          simp only [List.getElem?_cons_zero, Option.some.injEq] at hj
          subst hj
          refine ⟨t, rfl, rfl, ?_⟩
          have hp := h4 i
          simp only [addRows, if_true] at hp
          obtain ⟨tl, htl⟩ := hp
          rw [Nat.add_zero, ← htl, hid]
          simp
        | succ j =>
          obtain ⟨t', l1, l2, l3⟩ := k2 j r (by simpa using hj)
          rw [show i + (j + 1) = i + 1 + j by omega]
          exact ⟨t', by simpa using l1, l2, l3⟩
    · rw [hx] at b1 b2
      have hacc : (Chunker.Op.append t w.episode w.step).accepted (c.step (.append t w.episode w.step)).2 = [] := a5 e (by rw [hx])
      rw [appendAll]
      simp only [hci, hx]
      exact ⟨_, _, rfl, b1, b2, grows_add rows i _, by simp, by simp⟩
    · exact absurd (a2.mp (by rw [hx])) b3

end TrajWriter
end Verif
