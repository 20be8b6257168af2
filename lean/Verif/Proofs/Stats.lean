import Verif.Spec.Stats
/-
The ring buffer holds the latest calls.
-/
namespace Verif.Stats

theorem recs_snoc (ops : List Op) (op : Op) : recs (ops ++ [op]) = recStep (recs ops) op := by
  simp [recs, List.foldl_append]

theorem run_append (s : S) (as bs : List Op) : run s (as ++ bs) = (run s as).bind fun s' => run s' bs := by
  induction as generalizing s with
  | nil => rfl
  | cons a as ih =>
    simp only [List.cons_append, run]
    cases step s a with
    | none => rfl
    | some s' => exact ih s'

theorem run_ind {s0 : S} (P : List Op → S → Prop) (h0 : P [] s0)
    (hs : ∀ as s a s', run s0 as = some s → P as s → step s a = some s' → P (as ++ [a]) s') :
    ∀ as s, run s0 as = some s → P as s := by
  intro as
  generalize hn : as.length = n
  induction n generalizing as with
  | zero =>
    intro s h
    cases List.length_eq_zero_iff.mp hn
    cases h
    exact h0
  | succ n ih =>
    intro s h
    rcases List.eq_nil_or_concat as with rfl | ⟨bs, a, rfl⟩
    · simp at hn
    · rw [List.concat_eq_append] at h hn ⊢
      rw [run_append] at h
      cases hb : run s0 bs with
      | none => simp [hb] at h
      | some s1 =>
        simp only [hb, Option.bind_some, run] at h
        split at h
        · simp at h
        · rename_i s2 h2
          cases h
          exact hs bs s1 a _ hb (ih bs (by simpa using hn) s1 hb) h2

/-- The state agrees with the list of calls. -/
structure Inv (size : Nat) (cs : List Rec) (s : S) : Prop where
  size_eq : s.size = size
  next : s.next = cs.length
  active : s.active = s.handles
  handles : ∀ h, h ∈ s.handles ↔ ∃ c, cs[h]? = some c ∧ c.blocked = none
  nodup : s.handles.Nodup
  slots : ∀ i c, cs[i]? = some c → cs.length ≤ i + size → s.events (i % size) = ⟨i, c.start, c.blocked.getD 0⟩
  completed : s.completed = cs.countP (·.blocked.isSome)
  limited : s.limited = cs.countP (fun c => decide (0 < c.blocked.getD 0))
  total : s.totalWait = (cs.map fun c => c.blocked.getD 0).sum

theorem Inv.init (size : Nat) : Inv size [] (init size) := by
  constructor <;> simp [Stats.init]

theorem mod_inj {size a b n : Nat} (h : a % size = b % size) (ha : a < n) (hb : b < n) (h1 : n ≤ a + size)
    (h2 : n ≤ b + size) : a = b := by
  have e1 := Nat.div_add_mod a size
  have e2 := Nat.div_add_mod b size
  have : a / size = b / size := by
    rcases Nat.lt_trichotomy (a / size) (b / size) with hlt | he | hlt
    · exfalso
      have := Nat.mul_le_mul_left size hlt
      rw [Nat.mul_succ] at this
      omega
    · exact he
    · exfalso
      have := Nat.mul_le_mul_left size hlt
      rw [Nat.mul_succ] at this
      omega
  rw [this] at e1
  omega

theorem sum_set {cs : List Rec} {h : Nat} {c c' : Rec} (f : Rec → Int) (hc : cs[h]? = some c) :
    ((cs.set h c').map f).sum = (cs.map f).sum - f c + f c' := by
  induction cs generalizing h with
  | nil => simp at hc
  | cons a l ih =>
    cases h with
    | zero => simp at hc; subst hc; simp; omega
    | succ n =>
      simp only [List.getElem?_cons_succ] at hc
      simp only [List.set_cons_succ, List.map_cons, List.sum_cons, ih hc]; omega

theorem Inv.create {size : Nat} {cs : List Rec} {s : S} (h : Inv size cs s) (now : Int)
    (hfit : ∀ i c, (cs ++ [⟨now, none⟩])[i]? = some c → c.blocked = none → cs.length + 1 ≤ i + size) :
    Inv size (cs ++ [⟨now, none⟩]) (create s now) := by
  have hpos : 0 < size := by
    have := hfit cs.length ⟨now, none⟩ (by simp) rfl
    omega
  constructor
  · exact h.size_eq
  · simp [Stats.create, h.next]
  · simp [Stats.create, h.active]
  · intro k
    simp only [Stats.create, List.mem_cons, h.handles, h.next]
    constructor
    · rintro (rfl | ⟨c, h1, h2⟩)
      · exact ⟨⟨now, none⟩, by simp, rfl⟩
      · refine ⟨c, ?_, h2⟩
        rw [List.getElem?_append_left]
        · exact h1
        · exact (List.getElem?_eq_some_iff.mp h1).1
    · rintro ⟨c, h1, h2⟩
      rcases Nat.lt_trichotomy k cs.length with hl | he | hg
      · rw [List.getElem?_append_left hl] at h1
        exact .inr ⟨c, h1, h2⟩
      · exact .inl he
      · have : k < (cs ++ [(⟨now, none⟩ : Rec)]).length := (List.getElem?_eq_some_iff.mp h1).1
        simp at this
        omega
  · simp only [Stats.create, List.nodup_cons]
    refine ⟨?_, h.nodup⟩
    rw [h.handles, h.next]
    rintro ⟨c, h1, _⟩
    have := (List.getElem?_eq_some_iff.mp h1).1
    omega
  · intro i c hc hlen
    simp only [List.length_append, List.length_singleton] at hlen
    simp only [Stats.create, h.size_eq, h.next]
    have hlt : i < cs.length + 1 := by
      have := (List.getElem?_eq_some_iff.mp hc).1
      simpa using this
    by_cases he : i = cs.length
    · subst he
      simp only [List.getElem?_append_right (Nat.le_refl _), Nat.sub_self, List.getElem?_cons_zero, Option.some.injEq] at hc
      subst hc
      simp
    · rw [if_neg]
      · rw [List.getElem?_append_left (by omega)] at hc
        exact h.slots i c hc (by omega)
      · intro hm
        exact he (mod_inj hm (n := cs.length + 1) (by omega) (by omega) (by omega) (by omega))
  · simp [Stats.create, h.completed, List.countP_append]
  · simp [Stats.create, h.limited, List.countP_append]
  · simp [Stats.create, h.total]

theorem Inv.finish {size : Nat} {cs : List Rec} {s : S} (h : Inv size cs s) {k : Nat} {c : Rec} (hk : cs[k]? = some c)
    (hc : c.blocked = none) (b : Bool) (now : Int) (hfit : cs.length ≤ k + size) :
    Inv size (cs.set k ⟨c.start, some (if b then now - c.start else 0)⟩) (finish s k b now) := by
  have hlt := (List.getElem?_eq_some_iff.mp hk).1
  have hslot := h.slots k c hk hfit
  have hget : ∀ i, (cs.set k ⟨c.start, some (if b then now - c.start else 0)⟩)[i]? =
      if k = i then some ⟨c.start, some (if b then now - c.start else 0)⟩ else cs[i]? := by
    intro i
    rw [List.getElem?_set]
    split
    · rename_i he; subst he; simp
    · rfl
  have hev : ∀ e : Event, e = ⟨k, c.start, c.blocked.getD 0⟩ →
      (if b = true then { e with blockedFor := now - e.start } else e) = ⟨k, c.start, if b then now - c.start else 0⟩ := by
    rintro _ rfl
    cases b <;> simp [hc]
  have hev := hev _ hslot
  constructor
  · exact h.size_eq
  · simp [Stats.finish, h.next]
  · simp only [Stats.finish, h.size_eq, h.active, hev]
  · intro i
    simp only [Stats.finish, List.mem_filter, h.handles, hget, decide_eq_true_eq, ne_eq]
    constructor
    · rintro ⟨⟨c', h1, h2⟩, h3⟩
      exact ⟨c', by rw [if_neg (fun e => h3 e.symm)]; exact h1, h2⟩
    · rintro ⟨c', h1, h2⟩
      split at h1
      · cases h1; simp at h2
      · rename_i hne
        exact ⟨⟨c', h1, h2⟩, fun e => hne e.symm⟩
  · exact h.nodup.sublist List.filter_sublist
  · intro i c' hi hlen
    rw [List.length_set] at hlen
    rw [hget] at hi
    simp only [Stats.finish, h.size_eq, hev]
    split at hi
    · rename_i he
      subst he
      cases hi
      simp
    · rename_i hne
      have hil := (List.getElem?_eq_some_iff.mp hi).1
      rw [if_neg]
      · exact h.slots i c' hi hlen
      · intro hm
        exact hne (mod_inj hm (n := cs.length) (by omega) (by omega) (by omega) (by omega)).symm
  · simp only [Stats.finish, h.completed]
    rw [List.countP_set hlt]
    have : cs[k] = c := (List.getElem?_eq_some_iff.mp hk).2
    simp [this, hc]
  · simp only [Stats.finish, h.size_eq, hev, h.limited]
    rw [List.countP_set hlt]
    have : cs[k] = c := (List.getElem?_eq_some_iff.mp hk).2
    simp only [this, hc, Option.getD_none, Option.getD_some, decide_eq_true_eq, Int.lt_irrefl, if_false, Nat.sub_zero]
    generalize (if b = true then now - c.start else 0) = x
    split <;> simp
  · simp only [Stats.finish, h.size_eq, hev, h.total]
    rw [sum_set _ hk]
    simp [hc]

theorem Fits.prefix {size : Nat} {as bs : List Op} (h : Fits size (as ++ bs)) : Fits size as :=
  fun p hp => h p (hp.trans (List.prefix_append _ _))

theorem inv_run {size : Nat} : ∀ ops s, run (init size) ops = some s → Fits size ops → Inv size (recs ops) s :=
  run_ind (fun ops s => Fits size ops → Inv size (recs ops) s) (fun _ => Inv.init size) fun ops s op s' _ ih hs hf => by
    have hi := ih hf.prefix
    rw [recs_snoc]
    cases op with
    | create now =>
      cases hs
      refine hi.create now fun i c hc hb => ?_
      have := hf (ops ++ [.create now]) (List.prefix_refl _) i c (by rw [recs_snoc]; exact hc) hb
      rw [recs_snoc] at this
      simpa [recStep] using this
    | finish k b now =>
      simp only [step] at hs
      split at hs
      · rename_i hm
        cases hs
        obtain ⟨c, h1, h2⟩ := (hi.handles k).mp hm
        simp only [recStep, h1]
        exact hi.finish h1 h2 b now (hf ops (List.prefix_append _ _) k c h1 h2)
      · simp at hs

theorem foldl_min (l : List Nat) (a : Nat) : l.foldl min a ∈ a :: l ∧ ∀ x ∈ a :: l, l.foldl min a ≤ x := by
  induction l generalizing a with
  | nil => simp
  | cons b l ih =>
    obtain ⟨h1, h2⟩ := ih (min a b)
    simp only [List.foldl_cons]
    constructor
    · rcases List.mem_cons.mp h1 with h | h
      · rw [h]
        rcases Nat.le_total a b with hab | hab
        · rw [Nat.min_eq_left hab]; simp
        · rw [Nat.min_eq_right hab]; simp
      · simp [h]
    · intro x hx
      have h3 := h2 (min a b) (by simp)
      rcases List.mem_cons.mp hx with rfl | hx
      · omega
      · rcases List.mem_cons.mp hx with rfl | hx
        · omega
        · exact h2 x (by simp [hx])

theorem Inv.oldest {size : Nat} {cs : List Rec} {s : S} (h : Inv size cs s) :
    minElement s.next s.active = cs.findIdx (·.blocked.isNone) := by
  rw [h.active, h.next]
  cases hh : s.handles with
  | nil =>
    simp only [minElement]
    symm
    rw [List.findIdx_eq_length]
    intro c hc
    cases hb : c.blocked with
    | some x => simp
    | none =>
      obtain ⟨i, hi⟩ := List.mem_iff_getElem?.mp hc
      have := (h.handles i).mpr ⟨c, hi, hb⟩
      simp [hh] at this
  | cons a l =>
    simp only [minElement]
    obtain ⟨h1, h2⟩ := foldl_min l a
    rw [← hh] at h1 h2
    generalize l.foldl min a = m at h1 h2
    obtain ⟨c, hc, hb⟩ := (h.handles m).mp h1
    obtain ⟨hml, hmc⟩ := List.getElem?_eq_some_iff.mp hc
    symm
    rw [List.findIdx_eq hml]
    refine ⟨by rw [hmc, hb]; rfl, ?_⟩
    intro j hj
    cases hbj : (cs[j]).blocked with
    | some x => rfl
    | none =>
      have := h2 j ((h.handles j).mpr ⟨cs[j], by simp, hbj⟩)
      omega

theorem before_oldest {cs : List Rec} {i : Nat} (h : i < cs.findIdx (·.blocked.isNone)) :
    ∃ st bl, cs[i]? = some ⟨st, some bl⟩ := by
  have hl : i < cs.length := Nat.lt_of_lt_of_le h List.findIdx_le_length
  have := List.not_of_lt_findIdx h
  refine ⟨cs[i].start, cs[i].blocked.getD 0, ?_⟩
  rw [List.getElem?_eq_getElem hl]
  cases hc : cs[i] with
  | mk st b =>
    rw [hc] at this
    cases b with
    | none => simp at this
    | some x => rfl

/-- What a request for the history returns. -/
theorem Inv.history {size : Nat} {cs : List Rec} {s : S} (h : Inv size cs s) {m : Nat} (hm : m ≤ cs.length)
    (hs : cs.length ≤ m + size) :
    ∃ es, Stats.history s m = .ok es ∧ Reports es cs m (cs.findIdx (·.blocked.isNone) - 1) := by
  have hle : cs.findIdx (·.blocked.isNone) ≤ cs.length := List.findIdx_le_length
  have hmin : (if size ≤ cs.length - m then cs.length - size else m) = m := by split <;> omega
  have ho := h.oldest
  rw [h.next] at ho
  simp only [Stats.history, h.next, h.size_eq, hmin, ho]
  rw [if_neg (by omega)]
  split
  · rename_i hlt
    exact ⟨[], rfl, by simp; omega, fun j hj => by omega⟩
  · refine ⟨_, rfl, by simp; omega, fun j hj => ?_⟩
    obtain ⟨st, bl, he⟩ := before_oldest (cs := cs) (i := m + j) (by omega)
    refine ⟨st, bl, he, ?_⟩
    rw [List.getElem?_map, List.getElem?_range (by omega)]
    simp only [Option.map_some, Option.some.injEq]
    exact h.slots (m + j) _ he (by omega)

theorem sum_perm {l l' : List Int} (h : l.Perm l') : l.sum = l'.sum := by
  induction h with
  | nil => rfl
  | cons x _ ih => simp [ih]
  | swap x y l => simp; omega
  | trans _ _ ih1 ih2 => exact ih1.trans ih2

/-- The numbers of the running calls. -/
def running (cs : List Rec) : List Nat :=
  (List.range cs.length).filter fun i => (cs[i]?).any (·.blocked.isNone)

theorem Inv.active_perm {size : Nat} {cs : List Rec} {s : S} (h : Inv size cs s) : s.active.Perm (running cs) := by
  rw [h.active]
  refine (List.perm_ext_iff_of_nodup h.nodup (List.nodup_range.sublist List.filter_sublist)).mpr fun i => ?_
  rw [h.handles]
  simp only [running, List.mem_filter, List.mem_range]
  constructor
  · rintro ⟨c, h1, h2⟩
    exact ⟨(List.getElem?_eq_some_iff.mp h1).1, by simp [h1, h2]⟩
  · rintro ⟨h1, h2⟩
    refine ⟨cs[i], by simp, ?_⟩
    rw [List.getElem?_eq_getElem h1] at h2
    simpa using h2

theorem running_length (cs : List Rec) : (running cs).length = cs.countP (·.blocked.isNone) := by
  have : ∀ cs : List Rec, ((List.range cs.length).filter fun i => (cs[i]?).any (·.blocked.isNone)).length = cs.countP (·.blocked.isNone) := by
    intro cs
    induction cs with
    | nil => rfl
    | cons c cs ih =>
      rw [List.length_cons, List.range_succ_eq_map, List.filter_cons, List.countP_cons, ← ih, List.filter_map]
      simp only [List.getElem?_cons_zero, Option.any_some, Function.comp_def, Nat.succ_eq_add_one, List.getElem?_cons_succ]
      split <;> simp
  exact this cs

theorem running_waits (cs : List Rec) (now : Int) : ∀ (f : Nat → Int), (∀ i c, cs[i]? = some c → c.blocked = none → f i = now - c.start) →
    ((running cs).map f).sum = ((cs.filter (·.blocked.isNone)).map fun c => now - c.start).sum := by
  have : ∀ (cs : List Rec) (f : Nat → Int), (∀ i c, cs[i]? = some c → c.blocked = none → f i = now - c.start) →
    (((List.range cs.length).filter fun i => (cs[i]?).any (·.blocked.isNone)).map f).sum = ((cs.filter (·.blocked.isNone)).map fun c => now - c.start).sum := by
    intro cs
    induction cs with
    | nil => intro f _; rfl
    | cons c cs ih =>
      intro f hf
      rw [List.length_cons, List.range_succ_eq_map, List.filter_cons, List.filter_map]
      simp only [List.getElem?_cons_zero, Option.any_some, Function.comp_def, Nat.succ_eq_add_one, List.getElem?_cons_succ]
      have hi := ih (fun i => f (i + 1)) (fun i c' h1 h2 => hf (i + 1) c' (by simpa using h1) h2)
      cases hb : c.blocked with
      | none =>
        simp only [Option.isNone_none, if_true, List.map_cons, List.sum_cons, List.filter_cons, hb]
        rw [hf 0 c (by simp) hb, ← hi]
        simp [List.map_map, Function.comp_def]
      | some x =>
        simp only [Option.isNone_some, List.filter_cons, hb]
        simp only [Bool.false_eq_true, if_false]
        rw [← hi]
        simp [List.map_map, Function.comp_def]
  exact this cs

end Verif.Stats
