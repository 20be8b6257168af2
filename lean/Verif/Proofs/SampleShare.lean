import Verif.Proofs.SampleAsync
/-
No sample of a table is given to two streams of the asynchronous server, or twice to one.
-/
namespace Verif
open Worker (W Act Req answers live)

namespace SampReactor

theorem maybeSend_got {r r' : SampReactor} (h : r.maybeSend = .ok r') : r'.got = r.got ∧ r'.task = r.task := by
  unfold maybeSend at h
  split at h
  · cases h; exact ⟨rfl, rfl⟩
  · split at h
    · cases h
    · cases h; exact ⟨rfl, rfl⟩

theorem setFinished_got {r r' : SampReactor} {c : Option Code} (h : r.setFinished c = .ok r') : r'.got = r.got := by
  unfold setFinished at h
  split at h
  · cases h
  · cases h; rfl

theorem maybeStartRead_got {r r' : SampReactor} (h : r.maybeStartRead = .ok r') : r'.got = r.got := by
  unfold maybeStartRead startRead at h
  split at h
  · split at h
    · cases h
    · cases h; rfl
  · cases h; rfl

theorem readEnd_got {r r' : SampReactor} (h : r.readEnd = .ok r') : r'.got = r.got := by
  unfold readEnd at h
  simp only at h
  split at h
  · exact (setFinished_got h).trans rfl
  · cases h; rfl

theorem onWrite_got {r r' : SampReactor} {ok : Bool} (h : r.onWrite ok = .ok r') : r'.got = r.got := by
  unfold onWrite at h
  simp only at h
  split at h
  · cases h; rfl
  · split at h
    · exact (setFinished_got h).trans rfl
    · split at h
      · exact (setFinished_got h).trans rfl
      · exact (maybeSend_got h).1.trans rfl

theorem maybeSample_got (r : SampReactor) : r.maybeSample.1.got = r.got := by
  unfold maybeSample
  split
  · rfl
  · split <;> rfl

theorem onAnswer_got {w : Wire} {r r' : SampReactor} {samples : List Sampled} {st : Worker.Status} {a : Option Ask}
    (h : r.onAnswer w samples st = .ok (r', a)) :
    r'.got = r.got ∨ ∃ t, r.task = some t ∧ r'.got = r.got ++ samples.map (t.table, ·) := by
  unfold onAnswer at h
  simp only at h
  split at h
  · split at h
    · cases h; exact .inl rfl
    · split at h
      · rename_i hf
        cases h
        exact .inl ((setFinished_got hf).trans rfl)
      · cases h
      · cases h
  · unfold onSamples at h
    split at h
    · cases h
    · rename_i t ht
      simp only at h
      split at h
      · rename_i r1 hd
        have hg : r1.got = r.got ++ samples.map (t.table, ·) := by
          unfold deliverSamples at hd
          simp only at hd
          split at hd
          · cases hd; rfl
          · exact (maybeSend_got hd).1.trans rfl
        refine .inr ⟨t, ht, ?_⟩
        split at h
        · have h := Res.ok.inj h
          have h1 := congrArg Prod.fst h
          simp only at h1
          rw [← h1, maybeSample_got, hg]
        · cases h; exact hg
      · cases h
      · cases h

end SampReactor

namespace AsyncSampler

theorem got_some {v : AsyncSampler} {s : Nat} {r : SampReactor} (h : v.streams.get? s = some r) : v.got s = r.got := by simp [got, h]

theorem put_got {v : AsyncSampler} {s : Nat} {r : SampReactor} (h : v.streams.get? s = some r) {x : Res SampReactor}
    (hx : ∀ r', x = .ok r' → r'.got = r.got) (s' : Nat) : (v.put s x).got s' = v.got s' := by
  unfold put
  split
  · rename_i r'
    simp only [got, AMap.get?_insert]
    split
    · subst_vars; simp [h, hx r' rfl]
    · rfl
  · rfl

theorem ask_got (v : AsyncSampler) (s : Nat) (now : Int) (a : Ask) (s' : Nat) : (v.ask s now a).got s' = v.got s' := by
  unfold ask
  split <;> rfl

theorem putAsk_got {v : AsyncSampler} {s : Nat} {r : SampReactor} (h : v.streams.get? s = some r) {x : SampReactor × Option Ask}
    (hx : x.1.got = r.got) (now : Int) (s' : Nat) : (v.putAsk s now x).got s' = v.got s' := by
  obtain ⟨r', a⟩ := x
  have := put_got h (x := .ok r') (fun r1 e => by cases e; exact hx) s'
  cases a with
  | none => exact this
  | some a => simp only [putAsk]; rw [ask_got]; exact this

/-- What the streams get in one step. -/
theorem got_step {w : Wire} {v v' : AsyncSampler} {e : Event} (hs : v.step w e = some v') :
    (∀ s, v'.got s = v.got s) ∨ ∃ name i now t q st r tk, e = .deliver name i now ∧ v.tables.get? name = some t ∧
      t.todo[i]? = some (.answer q st) ∧ q.id % 2 = 0 ∧ v.streams.get? (q.id / 2) = some r ∧ r.gone = false ∧ r.task = some tk ∧
      v'.got (q.id / 2) = v.got (q.id / 2) ++ q.samples.map (tk.table, ·) ∧ ∀ s, s ≠ q.id / 2 → v'.got s = v.got s := by
  unfold AsyncSampler.step at hs
  split at hs
  · cases hs
  cases e with
  | start s =>
    simp only at hs
    split at hs
    · cases hs
    · rename_i hc
      cases hs
      have hn : v.streams.get? s = none := by simpa [AMap.contains] using hc
      refine .inl fun s' => ?_
      simp only [got, AMap.get?_insert]
      split
      · subst_vars; simp [hn, SampReactor.make]
      · rfl
  | read s req now =>
    simp only at hs
    split at hs
    · cases hs
    · rename_i r hr
      split at hs
      · cases hs
        refine .inl fun s' => ?_
        unfold onRead
        simp only
        split
        · refine put_got hr (fun r' g => ?_) s'; exact (SampReactor.readEnd_got g).trans rfl
        · split
          · refine put_got hr (fun r' g => ?_) s'; exact (SampReactor.readEnd_got g).trans rfl
          · split
            · refine put_got hr (fun r' g => ?_) s'; exact (SampReactor.setFinished_got g).trans rfl
            · rename_i r1 hp
              have : r1.got = r.got := by
                unfold SampReactor.process at hp
                split at hp
                · split at hp
                  · cases hp
                  · cases hp; rfl
                · cases hp
              exact putAsk_got hr (by rw [SampReactor.maybeSample_got, this]) _ s'
      · cases hs
  | write s ok =>
    simp only at hs
    split at hs
    · cases hs
    · rename_i r hr
      split at hs
      · cases hs
        refine .inl (put_got hr fun r' g => ?_); exact (SampReactor.onWrite_got g).trans rfl
      · cases hs
  | more s now =>
    simp only at hs
    split at hs
    · cases hs
    · rename_i r hr
      split at hs
      · cases hs
      · cases hs
        refine .inl (putAsk_got hr ?_ _); exact (SampReactor.maybeSample_got _).trans rfl
  | next s =>
    simp only at hs
    split at hs
    · cases hs
    · rename_i r hr
      split at hs
      · cases hs
        refine .inl (put_got hr fun r' g => ?_); exact (SampReactor.maybeStartRead_got g).trans rfl
      · cases hs
  | cancel s =>
    simp only at hs
    split at hs
    · cases hs
    · rename_i r hr
      split at hs
      · cases hs
      · cases hs
        exact .inl (put_got hr fun r' g => by cases g; rfl)
  | done s =>
    simp only at hs
    split at hs
    · cases hs
    · rename_i r hr
      split at hs
      · cases hs
        exact .inl (put_got hr fun r' g => by cases g; rfl)
      · cases hs
  | table name a =>
    simp only at hs
    split at hs
    · cases hs
    · split at hs
      · cases hs
      · split at hs
        · cases hs
        · cases hs; exact .inl fun _ => rfl
  | deliver name i now =>
    simp only at hs
    split at hs
    · cases hs
    · rename_i t ht
      split at hs
      · cases hs
      · rename_i o ho
        cases hs
        cases o with
        | notify c st => exact .inl fun _ => rfl
        | answer q st =>
          unfold deliver
          simp only
          by_cases hq : q.id % 2 = 0
          · rw [if_pos hq]
            cases hr : v.streams.get? (q.id / 2) with
            | none => exact .inl fun _ => rfl
            | some r =>
              simp only
              by_cases hg : r.gone = true
              · rw [if_pos hg]; exact .inl fun _ => rfl
              · rw [if_neg hg]
                cases ha : r.onAnswer w q.samples st with
                | err c => exact .inl fun _ => rfl
                | died => exact .inl fun _ => rfl
                | ok x =>
                  obtain ⟨r', a⟩ := x
                  rcases SampReactor.onAnswer_got ha with g | ⟨tk, g1, g2⟩
                  · exact .inl fun s' => (putAsk_got (v := { v with tables := v.tables.insert name { t with todo := t.todo.eraseIdx i } }) hr
                      (x := (r', a)) g now s').trans rfl
                  · refine .inr ⟨name, i, now, t, q, st, r, tk, rfl, ht, ho, hq, hr, by simpa using hg, g1, ?_, fun s' hne => ?_⟩
                    · rw [got_some hr, ← g2]
                      cases a with
                      | none => simp [putRes, putAsk, AsyncSampler.put, got]
                      | some a => simp only [putRes, putAsk]; rw [ask_got]; simp [AsyncSampler.put, got]
                    · have : ∀ v1 : AsyncSampler, v1.streams = v.streams → (v1.put (q.id / 2) (.ok r')).got s' = v.got s' := by
                        intro v1 hv
                        simp [AsyncSampler.put, got, AMap.get?_insert, hne, hv]
                      cases a with
                      | none => exact this _ rfl
                      | some a => simp only [putRes, putAsk]; rw [ask_got]; exact this _ rfl
          · rw [if_neg hq]; exact .inl fun _ => rfl

/-- What becomes of a table in one step. -/
def TMove (e : Event) (name : String) (t t' : SampTable) : Prop :=
  (t'.todo = t.todo ∧ t'.w.out = t.w.out ∧ ∀ i now, e ≠ .deliver name i now) ∨
  (∃ l, t'.todo = t.todo ++ l ∧ t'.w.out = t.w.out ++ l ∧ ∀ i now, e ≠ .deliver name i now) ∨
  ∃ i now, e = .deliver name i now ∧ t'.todo = t.todo.eraseIdx i ∧ t'.w.out = t.w.out

theorem put_tables (v : AsyncSampler) (s : Nat) (x : Res SampReactor) : (v.put s x).tables = v.tables := by
  unfold put; split <;> rfl

/-- Two tables look alike to the streams. -/
def Alike (T T' : AMap String SampTable) : Prop :=
  ∀ name t', T'.get? name = some t' → ∃ t, T.get? name = some t ∧ t'.todo = t.todo ∧ t'.w.out = t.w.out

theorem Alike.rfl {T : AMap String SampTable} : Alike T T := fun _ t' h => ⟨t', h, _root_.rfl, _root_.rfl⟩

theorem ask_alike (v : AsyncSampler) (s : Nat) (now : Int) (a : Ask) : Alike v.tables (v.ask s now a).tables := by
  unfold ask
  split
  · exact .rfl
  · rename_i t ht
    intro name t' h
    simp only [AMap.get?_insert] at h
    split at h
    · subst_vars; cases h; exact ⟨t, ht, _root_.rfl, _root_.rfl⟩
    · exact ⟨t', h, _root_.rfl, _root_.rfl⟩

theorem putAsk_alike (v : AsyncSampler) (s : Nat) (now : Int) (x : SampReactor × Option Ask) : Alike v.tables (v.putAsk s now x).tables := by
  obtain ⟨r, a⟩ := x
  cases a with
  | none => exact .rfl
  | some a => exact ask_alike _ _ _ _

theorem onRead_alike (v : AsyncSampler) (s : Nat) (r : SampReactor) (req : Option SampleReq) (now : Int) :
    Alike v.tables (v.onRead s r req now).tables := by
  unfold onRead
  simp only
  split
  · rw [put_tables]; exact .rfl
  · split
    · rw [put_tables]; exact .rfl
    · split
      · rw [put_tables]; exact .rfl
      · exact putAsk_alike _ _ _ _

theorem tables_step {w : Wire} {v v' : AsyncSampler} {e : Event} (hs : v.step w e = some v') (name : String) (t' : SampTable)
    (ht' : v'.tables.get? name = some t') : ∃ t, v.tables.get? name = some t ∧ TMove e name t t' := by
  have alike : Alike v.tables v'.tables → (∀ i now, e ≠ .deliver name i now) → ∃ t, v.tables.get? name = some t ∧ TMove e name t t' := by
    intro h he
    obtain ⟨t, h1, h2, h3⟩ := h name t' ht'
    exact ⟨t, h1, .inl ⟨h2, h3, he⟩⟩
  unfold AsyncSampler.step at hs
  split at hs
  · cases hs
  cases e with
  | start s =>
    simp only at hs
    split at hs
    · cases hs
    · cases hs; exact alike .rfl (by simp)
  | read s req now =>
    simp only at hs
    split at hs
    · cases hs
    · split at hs
      · cases hs; exact alike (onRead_alike _ _ _ _ _) (by simp)
      · cases hs
  | write s ok =>
    simp only at hs
    split at hs
    · cases hs
    · split at hs
      · cases hs; exact alike (by rw [put_tables]; exact .rfl) (by simp)
      · cases hs
  | more s now =>
    simp only at hs
    split at hs
    · cases hs
    · split at hs
      · cases hs
      · cases hs; exact alike (putAsk_alike _ _ _ _) (by simp)
  | next s =>
    simp only at hs
    split at hs
    · cases hs
    · split at hs
      · cases hs; exact alike (by rw [put_tables]; exact .rfl) (by simp)
      · cases hs
  | cancel s =>
    simp only at hs
    split at hs
    · cases hs
    · split at hs
      · cases hs
      · cases hs; exact alike (by rw [put_tables]; exact .rfl) (by simp)
  | done s =>
    simp only at hs
    split at hs
    · cases hs
    · split at hs
      · cases hs; exact alike (by rw [put_tables]; exact .rfl) (by simp)
      · cases hs
  | table n a =>
    simp only at hs
    split at hs
    · cases hs
    · rename_i t ht
      split at hs
      · cases hs
      · split at hs
        · cases hs
        · rename_i w' hst
          cases hs
          simp only [AMap.get?_insert] at ht'
          split at ht'
          · subst_vars
            cases ht'
            refine ⟨t, ht, .inr (.inl ⟨w'.out.drop t.w.out.length, rfl, ?_, by simp⟩)⟩
            by_cases hr : ∃ id k dl, a = .request id k dl
            · obtain ⟨id, k, dl, rfl⟩ := hr
              have : w' = Worker.enqueueSample t.w id k dl := by
                unfold Worker.step at hst
                split at hst
                · cases hst
                · simpa using hst.symm
              subst this
              simp [Worker.enqueueSample, Worker.signalled]
            · obtain ⟨_, l, hl⟩ := Worker.asked_step hst fun id k dl e => hr ⟨id, k, dl, e⟩
              rw [← hl]; simp
          · exact ⟨t', ht', .inl ⟨rfl, rfl, by simp⟩⟩
  | deliver n i now =>
    simp only at hs
    split at hs
    · cases hs
    · rename_i t ht
      split at hs
      · cases hs
      · rename_i o ho
        cases hs
        have hal : Alike (v.tables.insert n { t with todo := t.todo.eraseIdx i })
            (deliver w { v with tables := v.tables.insert n { t with todo := t.todo.eraseIdx i } } now o).tables := by
          unfold deliver
          split
          · exact .rfl
          · split
            · split
              · exact .rfl
              · split
                · exact .rfl
                · unfold putRes
                  split
                  · exact putAsk_alike _ _ _ _
                  · exact .rfl
            · exact .rfl
        obtain ⟨t1, h1, h2, h3⟩ := hal name t' ht'
        rw [AMap.get?_insert] at h1
        split at h1
        · subst_vars
          cases h1
          exact ⟨t, ht, .inr (.inr ⟨i, now, rfl, h2, h3⟩)⟩
        · rename_i hne
          exact ⟨t1, h1, .inl ⟨h2, h3, fun i' now' e => by cases e; exact hne rfl⟩⟩

/-- The samples of a table that some streams have got together. -/
def given (v : AsyncSampler) (ss : List Nat) (name : String) : List Sampled := ss.flatMap fun s => fromTable name (v.got s)

/-- The samples in answers. -/
def inAnswers (out : List Worker.Out) : List Sampled := (answers out).flatMap fun a => a.1.samples

theorem inAnswers_append (a b : List Worker.Out) : inAnswers (a ++ b) = inAnswers a ++ inAnswers b := by
  simp [inAnswers, Worker.answers_append]

theorem inAnswers_erase {l : List Worker.Out} {i : Nat} {q : Req} {st : Worker.Status} (h : l[i]? = some (.answer q st)) (y : Sampled) :
    (inAnswers l).count y = q.samples.count y + (inAnswers (l.eraseIdx i)).count y := by
  obtain ⟨hlt, hget⟩ := List.getElem?_eq_some_iff.mp h
  have h1 : l = l.take i ++ [.answer q st] ++ l.drop (i + 1) := by
    rw [List.append_assoc, List.singleton_append, ← hget, ← List.drop_eq_getElem_cons hlt, List.take_append_drop]
  have h2 := congrArg (fun l => (inAnswers l).count y) h1
  simp only [inAnswers_append, List.count_append] at h2
  have h3 : inAnswers [.answer q st] = q.samples := by simp [inAnswers, answers]
  rw [h3] at h2
  rw [List.eraseIdx_eq_take_drop_succ, inAnswers_append, List.count_append]
  omega

theorem inAnswers_erase_le (l : List Worker.Out) (i : Nat) (y : Sampled) : (inAnswers (l.eraseIdx i)).count y ≤ (inAnswers l).count y := by
  have h := congrArg (fun l => (inAnswers l).count y) (List.take_append_drop i l).symm
  simp only [inAnswers_append, List.count_append] at h
  rw [List.eraseIdx_eq_take_drop_succ, inAnswers_append, List.count_append]
  have h2 := congrArg (fun l => (inAnswers l).count y) (List.take_append_drop 1 (l.drop i)).symm
  simp only [inAnswers_append, List.count_append, List.drop_drop] at h2
  omega

theorem given_same {v v' : AsyncSampler} (h : ∀ s, v'.got s = v.got s) (ss : List Nat) (name : String) : given v' ss name = given v ss name := by
  unfold given; simp only [h]

theorem given_more {v v' : AsyncSampler} {s : Nat} {name tb : String} {l : List Sampled} (h : v'.got s = v.got s ++ l.map (tb, ·))
    (ho : ∀ s', s' ≠ s → v'.got s' = v.got s') (y : Sampled) : ∀ {ss : List Nat}, ss.Nodup →
    (given v' ss name).count y ≤ (given v ss name).count y + if tb = name then l.count y else 0
  | [], _ => by simp [given]
  | x :: ss, hn => by
    obtain ⟨hx, hn⟩ := List.nodup_cons.mp hn
    simp only [given, List.flatMap_cons, List.count_append]
    have ih := given_more (name := name) h ho y hn
    simp only [given] at ih
    by_cases hxs : x = s
    · subst hxs
      have hsame : ss.flatMap (fun s => fromTable name (v'.got s)) = ss.flatMap fun s => fromTable name (v.got s) := by
        rw [List.flatMap_def, List.flatMap_def]
        refine congrArg _ (List.map_congr_left fun z hz => ?_)
        rw [ho z fun e => hx (e ▸ hz)]
      rw [hsame, h]
      simp only [fromTable, List.filter_append, List.map_append, List.count_append]
      by_cases ht : tb = name
      · rw [if_pos ht]
        have : ((l.map (tb, ·)).filter fun x => x.1 = name).map (fun x => x.2) = l := by
          rw [List.filter_eq_self.mpr (by simp [ht])]
          simp [Function.comp_def]
        rw [this]; omega
      · rw [if_neg ht]
        have : ((l.map (tb, ·)).filter fun x => x.1 = name) = [] := by simp [List.filter_eq_nil_iff, ht]
        rw [this]; simp
    · rw [ho x hxs]; omega

/-- Every sample is given once. -/
def Fair (v : AsyncSampler) : Prop := ∀ ss : List Nat, ss.Nodup → ∀ name t, v.tables.get? name = some t → ∀ y,
  (given v ss name).count y + (inAnswers t.todo).count y ≤ (inAnswers t.w.out).count y

theorem Fair.step {w : Wire} {cfgs : AMap String Config} {evs : List Event} {v v' : AsyncSampler} {e : Event} (h : Fair v) (hi : AInv w cfgs evs v)
    (hs : v.step w e = some v') : Fair v' := by
  intro ss hn name t' ht' y
  obtain ⟨t, ht, hm⟩ := tables_step hs name t' ht'
  have h0 := h ss hn name t ht y
  rcases got_step hs with hg | ⟨nm, i, now, tb, q, st, r, tk, rfl, k1, k2, k3, k4, k5, k6, k7, k8⟩
  · rw [given_same hg]
    rcases hm with ⟨m1, m2, _⟩ | ⟨l, m1, m2, _⟩ | ⟨i, now, _, m1, m2⟩
    · rw [m1, m2]; exact h0
    · rw [m1, m2, inAnswers_append, inAnswers_append, List.count_append, List.count_append]; omega
    · rw [m1, m2]
      have := inAnswers_erase_le t.todo i y
      omega
  · have hmore := given_more (name := name) k7 k8 y hn
    have hq : q.id = reqId (q.id / 2) := by simp only [reqId]; omega
    have hpend : q.bare ∈ pendOf v.tables nm (q.id / 2) := by
      rw [pendOf_some k1]
      refine List.mem_filter.mpr ⟨?_, decide_eq_true (show q.bare.id = reqId (q.id / 2) from hq)⟩
      simp only [SampTable.pend, List.mem_append, List.mem_map]
      refine .inl (.inl (.inl ⟨(q, st), ?_, rfl⟩))
      simp only [answers, List.mem_filterMap]
      exact ⟨_, List.mem_of_getElem? k2, rfl⟩
    obtain ⟨_, tk', n1, n2, _⟩ := (hi.link _ r k4).mine _ _ hpend
    rw [k6] at n1
    cases n1
    rcases hm with ⟨m1, m2, m3⟩ | ⟨l, m1, m2, m3⟩ | ⟨i', now', m3, m1, m2⟩
    · have hne : tk.table ≠ name := fun e => m3 i now (by rw [← e, n2])
      rw [if_neg hne] at hmore
      rw [m1, m2]; omega
    · have hne : tk.table ≠ name := fun e => m3 i now (by rw [← e, n2])
      rw [if_neg hne] at hmore
      rw [m1, m2, inAnswers_append, inAnswers_append, List.count_append, List.count_append]; omega
    · cases m3
      rw [k1] at ht
      cases ht
      rw [if_pos n2] at hmore
      have := inAnswers_erase k2 y
      rw [m1, m2]; omega

theorem Fair.init (T : AMap String Table) : Fair (AsyncSampler.init T) := by
  intro ss _ name t ht y
  have hg : given (AsyncSampler.init T) ss name = [] := by
    simp [given, got, AsyncSampler.init, AMap.empty, AMap.get?, fromTable]
  rw [init_get] at ht
  obtain ⟨x, _, rfl⟩ := Option.map_eq_some_iff.mp ht
  rw [hg]
  simp [inAnswers, answers]

theorem Fair.run {w : Wire} (hw : ∀ k, (w.content k).key = k) {cfgs : AMap String Config} {evs : List Event} {v : AsyncSampler}
    (h : (AsyncSampler.init (newTables cfgs)).run w evs = some v) (hp : Proper cfgs evs) : Fair v := by
  have := run_ind (P := fun pre v => Proper cfgs pre → AInv w cfgs pre v ∧ Fair v) (fun pre v e v' ih hs hpre => by
    obtain ⟨i1, i2⟩ := ih fun n a ha => hpre n a (List.mem_append_left _ ha)
    exact ⟨i1.step hw (fun n a ha => hpre n a (List.mem_append_right _ ha)) hs, i2.step i1 hs⟩) evs [] _ v
    (fun _ => ⟨AInv.init w cfgs, Fair.init _⟩) h
  exact (this hp).2

end AsyncSampler
end Verif
