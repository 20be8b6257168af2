import Verif.Proofs.SampleAsync
import Verif.Spec.QueueService
import Verif.Spec.QueueWorker
/-
C112: what the tables have answered to a sample stream of the asynchronous server is what the stream has got.
-/
namespace Verif.AsyncSampler
open Worker (W Act Req answers live Out)

/-- The samples in answers for a stream. -/
def answersFor (s : Nat) (out : List Out) : List Sampled := ((answers out).filter fun a => a.1.id = reqId s).flatMap fun a => a.1.samples

theorem answersFor_append (s : Nat) (a b : List Out) : answersFor s (a ++ b) = answersFor s a ++ answersFor s b := by
  simp [answersFor, answers]

theorem answersFor_cons (s : Nat) (o : Out) (b : List Out) : answersFor s (o :: b) = answersFor s [o] ++ answersFor s b :=
  answersFor_append s [o] b

theorem answersFor_answer (s : Nat) (q : Req) (st : Worker.Status) : answersFor s [.answer q st] = if q.id = reqId s then q.samples else [] := by
  simp only [answersFor, answers, List.filterMap_cons, List.filterMap_nil, List.filter_cons, List.filter_nil]
  by_cases h : q.id = reqId s <;> simp [h]

theorem answersFor_notify (s : Nat) (cb : Nat) (st : Worker.Status) : answersFor s [.notify cb st] = [] := rfl

/-- What a stream has got and what it will get is what was answered, as long as it runs. -/
structure HandedTo (s : Nat) (r : SampReactor) (n : String) (t : SampTable) : Prop where
  sub : (takenFrom n r.got ++ answersFor s t.todo).Sublist (answersFor s t.w.out)
  eq : r.finished = none → takenFrom n r.got ++ answersFor s t.todo = answersFor s t.w.out

def Handed (v : AsyncSampler) : Prop := ∀ s r, v.streams.get? s = some r → ∀ n t, v.tables.get? n = some t → HandedTo s r n t

/-- A section leaves what a stream has got. -/
structure Keeps (r r' : SampReactor) : Prop where
  got : r'.got = r.got
  finished : r'.finished = none → r.finished = none

theorem Keeps.rfl {r : SampReactor} : Keeps r r := ⟨_root_.rfl, id⟩

theorem Keeps.trans {r r' r'' : SampReactor} (h : Keeps r r') (h' : Keeps r' r'') : Keeps r r'' :=
  ⟨h'.got.trans h.got, fun g => h.finished (h'.finished g)⟩

def KeepsRes (r : SampReactor) (x : Res SampReactor) : Prop := ∀ r', x = .ok r' → Keeps r r'

theorem keeps_ok {r r' : SampReactor} (h : Keeps r r') : KeepsRes r (.ok r') := fun _ e => by cases e; exact h

theorem KeepsRes.after {r r' : SampReactor} {x : Res SampReactor} (h' : KeepsRes r' x) (h : Keeps r r') : KeepsRes r x := fun _ e => h.trans (h' _ e)

theorem keeps_startRead (r : SampReactor) : KeepsRes r r.startRead := by
  intro r' e
  unfold SampReactor.startRead at e
  split at e
  · cases e
  · cases e; exact ⟨rfl, id⟩

theorem keeps_maybeStartRead (r : SampReactor) : KeepsRes r r.maybeStartRead := by
  unfold SampReactor.maybeStartRead
  split
  · exact keeps_startRead r
  · exact keeps_ok .rfl

theorem keeps_maybeSend (r : SampReactor) : KeepsRes r r.maybeSend := by
  intro r' e
  unfold SampReactor.maybeSend at e
  split at e
  · cases e; exact .rfl
  · split at e
    · cases e
    · cases e; exact ⟨rfl, id⟩

theorem keeps_setFinished (r : SampReactor) (c : Option Code) : KeepsRes r (r.setFinished c) := by
  intro r' e
  unfold SampReactor.setFinished at e
  split at e
  · cases e
  · cases e; exact ⟨rfl, fun g => by cases g⟩

theorem keeps_readEnd (r : SampReactor) : KeepsRes r r.readEnd := by
  unfold SampReactor.readEnd
  simp only
  split
  · exact (keeps_setFinished _ _).after ⟨rfl, id⟩
  · exact keeps_ok ⟨rfl, id⟩

theorem keeps_onWrite (r : SampReactor) (ok : Bool) : KeepsRes r (r.onWrite ok) := by
  unfold SampReactor.onWrite
  simp only
  split
  · exact keeps_ok ⟨rfl, id⟩
  · split
    · exact (keeps_setFinished _ _).after ⟨rfl, id⟩
    · split
      · exact (keeps_setFinished _ _).after ⟨rfl, id⟩
      · exact (keeps_maybeSend _).after ⟨rfl, id⟩

theorem keeps_maybeSample (r : SampReactor) : Keeps r r.maybeSample.1 := by
  unfold SampReactor.maybeSample
  split
  · exact .rfl
  · split
    · exact .rfl
    · exact ⟨rfl, id⟩

theorem keeps_process {r r' : SampReactor} {q : SampleReq} {d : Option Int} (h : r.process q d = .inl r') : Keeps r r' := by
  unfold SampReactor.process at h
  split at h
  · split at h
    · cases h
    · cases h; exact ⟨rfl, id⟩
  · cases h

theorem HandedTo.keeps {s : Nat} {r r' : SampReactor} {n : String} {t : SampTable} (h : HandedTo s r n t) (k : Keeps r r') : HandedTo s r' n t :=
  ⟨by rw [k.got]; exact h.sub, fun g => by rw [k.got]; exact h.eq (k.finished g)⟩

theorem Handed.put {v : AsyncSampler} {s : Nat} {x : Res SampReactor} (h : Handed v)
    (hx : ∀ r', x = .ok r' → ∀ n t, v.tables.get? n = some t → HandedTo s r' n t) : Handed (v.put s x) := by
  unfold AsyncSampler.put
  split
  · rename_i r'
    intro s1 r1 hr1 n t ht
    simp only [AMap.get?_insert] at hr1
    split at hr1
    · rename_i e
      cases hr1; subst e
      exact hx _ rfl n t ht
    · exact h s1 r1 hr1 n t ht
  · exact h

theorem enqueueSample_out (w : W) (id num : Nat) (dl : Option Int) : (Worker.enqueueSample w id num dl).out = w.out := rfl

theorem Handed.ask {v : AsyncSampler} (h : Handed v) (s : Nat) (now : Int) (a : Ask) : Handed (v.ask s now a) := by
  unfold AsyncSampler.ask
  split
  · exact h
  · rename_i t0 ht0
    intro s1 r1 hr1 n t ht
    simp only [AMap.get?_insert] at ht
    split at ht
    · cases ht
      subst_vars
      have := h s1 r1 hr1 _ t0 ht0
      exact ⟨this.sub, this.eq⟩
    · exact h s1 r1 hr1 n t ht

theorem Handed.putAsk {v : AsyncSampler} {s : Nat} {now : Int} {x : SampReactor × Option Ask} (h : Handed v)
    (hx : ∀ n t, v.tables.get? n = some t → HandedTo s x.1 n t) : Handed (v.putAsk s now x) := by
  obtain ⟨r', a⟩ := x
  have := h.put (s := s) (x := .ok r') fun r1 e n t ht => by cases e; exact hx n t ht
  cases a with
  | none => exact this
  | some a => exact this.ask s now a

theorem Handed.set {v : AsyncSampler} {s : Nat} {r : SampReactor} {x : Res SampReactor} (h : Handed v) (hr : v.streams.get? s = some r) (k : KeepsRes r x) :
    Handed (v.put s x) := h.put fun r' e n t ht => (h s r hr n t ht).keeps (k r' e)

theorem Handed.putOwn {v : AsyncSampler} {s : Nat} {now : Int} {x : SampReactor × Option Ask}
    (h : ∀ s1 r1, (if s1 = s then some x.1 else v.streams.get? s1) = some r1 → ∀ n t, v.tables.get? n = some t → HandedTo s1 r1 n t) :
    Handed (v.putAsk s now x) := by
  obtain ⟨r', a⟩ := x
  have : Handed (v.put s (.ok r')) := by
    intro s1 r1 hr1 n t ht
    simp only [AsyncSampler.put, AMap.get?_insert] at hr1
    exact h s1 r1 hr1 n t ht
  cases a with
  | none => exact this
  | some a => exact this.ask s now a

/-- A worker's step adds to what it has sent. -/
theorem out_grows {w w' : W} {a : Act} (hs : Worker.step w a = some w') : ∃ more, w.out ++ more = w'.out := by
  by_cases ha : ∃ id n dl, a = .request id n dl
  · obtain ⟨id, n, dl, rfl⟩ := ha
    have : w' = Worker.enqueueSample w id n dl := by
      unfold Worker.step at hs
      split at hs
      · cases hs
      · simpa using hs.symm
    subst this
    exact ⟨[], by simp [Worker.enqueueSample, Worker.signalled]⟩
  · exact (Worker.asked_step hs fun id n dl e => ha ⟨id, n, dl, e⟩).2

/-- An element is taken out of a list. -/
theorem erase_split {α : Type} : ∀ {l : List α} {i : Nat} {o : α}, l[i]? = some o → ∃ a b, l = a ++ o :: b ∧ l.eraseIdx i = a ++ b
  | [], i, o, h => by simp at h
  | x :: l, 0, o, h => by cases h; exact ⟨[], l, rfl, rfl⟩
  | x :: l, i + 1, o, h => by
    obtain ⟨a, b, h1, h2⟩ := erase_split (l := l) (i := i) h
    exact ⟨x :: a, b, by simp [h1], by simp [h2]⟩

/-- No table has been asked for a stream that does not exist. -/
theorem fresh_none {w : Wire} {cfgs : AMap String Config} {evs : List Event} {v : AsyncSampler} (h : AInv w cfgs evs v) {s : Nat} (hs : v.streams.get? s = none)
    {n : String} {t : SampTable} (ht : v.tables.get? n = some t) : answersFor s t.w.out = [] ∧ answersFor s t.todo = [] := by
  have key : ∀ out : List Out, out ⊆ t.w.out → answersFor s out = [] := by
    intro out hsub
    simp only [answersFor, List.flatMap_eq_nil_iff, List.mem_filter, decide_eq_true_eq]
    rintro ⟨q, st⟩ ⟨hq, hid⟩
    exfalso
    have hT := h.tabs n t ht
    have hq' : (q, st) ∈ answers t.w.out := by
      simp only [answers, List.mem_filterMap] at hq ⊢
      obtain ⟨o, ho, e⟩ := hq
      exact ⟨o, hsub ho, e⟩
    have hc := hT.served.count q.bare
    have : 0 < t.w.asked.count q.bare := by
      have : q.bare ∈ (answers t.w.out).map fun a => a.1.bare := List.mem_map.mpr ⟨_, hq', rfl⟩
      have := List.count_pos_iff.mpr this
      omega
    obtain ⟨pre, e, hpre, req, hreq, _⟩ := hT.asked q.bare (List.count_pos_iff.mp this) s hid
    have h0 := (h.fresh s hs).1
    obtain ⟨rest, rfl⟩ := hpre
    rw [requests_append, List.append_eq_nil_iff] at h0
    rw [h0.1] at hreq
    cases hreq
  exact ⟨key _ (List.Subset.refl _), key _ (h.tabs n t ht).todo⟩

theorem keeps_deliverSamples (w : Wire) (r : SampReactor) (l : List Sampled) : KeepsRes r (r.deliverSamples w l) := by
  unfold SampReactor.deliverSamples
  simp only
  split
  · exact keeps_ok ⟨rfl, id⟩
  · exact (keeps_maybeSend _).after ⟨rfl, id⟩

/-- What a callback does. -/
theorem onAnswer_got {w : Wire} {r : SampReactor} {l : List Sampled} {st : Worker.Status} {x : SampReactor × Option Ask} {t : SampTask} (ht : r.task = some t)
    (h : r.onAnswer w l st = .ok x) :
    (x.1.got = r.got ++ l.map (t.table, ·) ∧ (x.1.finished = none → r.finished = none)) ∨ (x.1.got = r.got ∧ x.1.finished ≠ none) := by
  unfold SampReactor.onAnswer at h
  cases st with
  | some e =>
    simp only at h
    split at h
    · rename_i hf
      cases h
      refine .inr ⟨rfl, fun g => ?_⟩
      rw [g] at hf
      cases hf
    · split at h
      · rename_i r' hr'
        cases h
        unfold SampReactor.setFinished at hr'
        split at hr'
        · cases hr'
        · cases hr'
          exact .inr ⟨rfl, by simp⟩
      · cases h
      · cases h
  | none =>
    simp only [SampReactor.onSamples, ht] at h
    split at h
    · rename_i r' hr'
      have k := keeps_deliverSamples _ _ _ r' hr'
      left
      split at h
      · cases h
        have k2 := keeps_maybeSample r'
        exact ⟨by rw [k2.got, k.got], fun g => k.finished (k2.finished g)⟩
      · cases h
        exact ⟨by rw [k.got], fun g => k.finished g⟩
    · cases h
    · cases h

theorem Handed.step {w : Wire} {cfgs : AMap String Config} {evs : List Event} {v v' : AsyncSampler} {e : Event}
    (hA : AInv w cfgs evs v) (h : Handed v) (hs : v.step w e = some v') (hal : v'.dead = false) : Handed v' := by
  unfold AsyncSampler.step at hs
  rw [if_neg (by simp [hA.alive])] at hs
  cases e with
  | start s =>
    simp only at hs
    split at hs
    · cases hs
    · rename_i hc
      cases hs
      have hn : v.streams.get? s = none := by simpa [AMap.contains] using hc
      refine h.put (s := s) (x := .ok .make) fun r' e n t ht => ?_
      cases e
      obtain ⟨f1, f2⟩ := fresh_none hA hn ht
      exact ⟨by rw [f1, f2]; exact List.Sublist.refl _, fun _ => by rw [f1, f2]; rfl⟩
  | read s q now =>
    simp only at hs
    split at hs
    · cases hs
    · rename_i r hr
      split at hs
      · cases hs
        unfold AsyncSampler.onRead
        cases q with
        | none => exact h.set hr ((keeps_readEnd _).after ⟨rfl, id⟩)
        | some q =>
          simp only
          split
          · exact h.set hr ((keeps_readEnd _).after ⟨rfl, id⟩)
          · split
            · exact h.set hr ((keeps_setFinished _ _).after ⟨rfl, id⟩)
            · rename_i r' hr'
              refine h.putAsk fun n t ht => (h s r hr n t ht).keeps ?_
              exact (⟨rfl, id⟩ : Keeps r { r with reading := false }).trans ((keeps_process hr').trans (keeps_maybeSample _))
      · cases hs
  | write s ok =>
    simp only at hs
    split at hs
    · cases hs
    · rename_i r hr
      split at hs
      · cases hs
        exact h.set hr (keeps_onWrite r ok)
      · cases hs
  | more s now =>
    simp only at hs
    split at hs
    · cases hs
    · rename_i r hr
      split at hs
      · cases hs
      · cases hs
        exact h.putAsk fun n t ht => (h s r hr n t ht).keeps
          ((⟨rfl, id⟩ : Keeps r { r with after := r.after - 1 }).trans (keeps_maybeSample _))
  | next s =>
    simp only at hs
    split at hs
    · cases hs
    · rename_i r hr
      split at hs
      · cases hs
        exact h.set hr ((keeps_maybeStartRead _).after ⟨rfl, id⟩)
      · cases hs
  | cancel s =>
    simp only at hs
    split at hs
    · cases hs
    · rename_i r hr
      split at hs
      · cases hs
      · cases hs
        exact h.set hr (keeps_ok ⟨rfl, id⟩)
  | done s =>
    simp only at hs
    split at hs
    · cases hs
    · rename_i r hr
      split at hs
      · cases hs
        exact h.set hr (keeps_ok ⟨rfl, id⟩)
      · cases hs
  | table name a =>
    simp only at hs
    split at hs
    · cases hs
    · rename_i t ht
      split at hs
      · cases hs
      · split at hs
        · cases hs
        · rename_i w' hw'
          cases hs
          intro s r hr n t1 ht1
          simp only [AMap.get?_insert] at ht1
          split at ht1
          · cases ht1
            subst_vars
            obtain ⟨more, hmore⟩ := out_grows hw'
            have h0 := h s r hr _ t ht
            have hd : w'.out.drop t.w.out.length = more := by rw [← hmore, List.drop_left]
            refine ⟨?_, fun g => ?_⟩
            · simp only [hd, answersFor_append, ← List.append_assoc]
              rw [← hmore, answersFor_append]
              exact h0.sub.append (List.Sublist.refl _)
            · simp only [hd, answersFor_append, ← List.append_assoc]
              rw [← hmore, answersFor_append, h0.eq g]
          · exact h s r hr n t1 ht1
  | deliver name i now =>
    simp only at hs
    split at hs
    · cases hs
    · rename_i t ht
      split at hs
      · cases hs
      · rename_i o ho
        cases hs
        obtain ⟨a, b, h1, h2⟩ := erase_split ho
        -- streams that the answer is not for
        have others : ∀ s r, v.streams.get? s = some r → answersFor s [o] = [] → ∀ n t1,
            (v.tables.insert name { t with todo := t.todo.eraseIdx i }).get? n = some t1 → HandedTo s r n t1 := by
          intro s r hr ho' n t1 ht1
          simp only [AMap.get?_insert] at ht1
          split at ht1
          · cases ht1
            subst_vars
            have h0 := h s r hr _ t ht
            have he : answersFor s (t.todo.eraseIdx i) = answersFor s t.todo := by
              rw [h2, h1, answersFor_append, answersFor_append, answersFor_cons, ho', List.nil_append]
            exact ⟨by simp only [he]; exact h0.sub, fun g => by simp only [he]; exact h0.eq g⟩
          · exact h s r hr n t1 ht1
        cases o with
        | notify cb st => exact fun s r hr n t1 ht1 => others s r hr rfl n t1 ht1
        | answer q st =>
          unfold AsyncSampler.deliver
          simp only
          split
          · rename_i hev
            have hid : q.id = reqId (q.id / 2) := by unfold reqId; omega
            have oth : ∀ s, s ≠ q.id / 2 → answersFor s [.answer q st] = [] := fun s hne => by
              rw [answersFor_answer, if_neg (by unfold reqId; omega)]
            -- the other streams
            have rest : ∀ (x : Option SampReactor), (∀ r, x = some r → ∀ n t1, (v.tables.insert name { t with todo := t.todo.eraseIdx i }).get? n = some t1 →
                HandedTo (q.id / 2) r n t1) → ∀ s r, (if s = q.id / 2 then x else v.streams.get? s) = some r → ∀ n t1,
                (v.tables.insert name { t with todo := t.todo.eraseIdx i }).get? n = some t1 → HandedTo s r n t1 := by
              intro x hx s r hr n t1 ht1
              by_cases hne : s = q.id / 2
              · rw [if_pos hne] at hr
                subst hne
                exact hx r hr n t1 ht1
              · rw [if_neg hne] at hr
                exact others s r hr (oth s hne) n t1 ht1
            have gotten : ∀ r r' : SampReactor, v.streams.get? (q.id / 2) = some r →
                ((∃ tk, r.task = some tk ∧ r'.got = r.got ++ q.samples.map (tk.table, ·) ∧ (r'.finished = none → r.finished = none)) ∨
                  (r'.got = r.got ∧ r'.finished ≠ none)) → ∀ n t1,
                (v.tables.insert name { t with todo := t.todo.eraseIdx i }).get? n = some t1 → HandedTo (q.id / 2) r' n t1 := by
              intro r r' hr hcase n t1 ht1
              have hlink := hA.link _ r hr
              have hmem : q.bare ∈ pendOf v.tables name (q.id / 2) := by
                rw [pendOf_some ht]
                refine List.mem_filter.mpr ⟨?_, by simp only [decide_eq_true_eq]; exact hid⟩
                refine List.mem_append_left _ (List.mem_append_left _ (List.mem_append_left _ (List.mem_map.mpr ⟨(q, st), ?_, rfl⟩)))
                rw [h1]
                simp [answers]
              simp only [AMap.get?_insert] at ht1
              by_cases hn : n = name
              · subst hn
                rw [if_pos rfl] at ht1
                cases ht1
                have h0 := h _ r hr _ t ht
                -- it is the only one
                have hone : answersFor (q.id / 2) a = [] ∧ answersFor (q.id / 2) b = [] := by
                  have hlen := hlink.one n
                  rw [pendOf_some ht] at hlen
                  have : (((answers a ++ (q, st) :: answers b).map fun x => x.1.bare).filter fun y => y.id = reqId (q.id / 2)).length ≤ 1 := by
                    refine Nat.le_trans (List.Sublist.length_le (List.Sublist.filter _ ?_)) hlen
                    have e : answers t.todo = answers a ++ (q, st) :: answers b := by rw [h1]; simp [answers]
                    rw [← e]
                    unfold SampTable.pend
                    rw [List.append_assoc, List.append_assoc]
                    exact List.sublist_append_left _ _
                  rw [List.map_append, List.map_cons, List.filter_append, List.filter_cons, if_pos (by simp only [decide_eq_true_eq]; exact hid), List.length_append,
                    List.length_cons] at this
                  have z : ∀ l : List Out, (((answers l).map fun x => x.1.bare).filter fun y => y.id = reqId (q.id / 2)).length = 0 → answersFor (q.id / 2) l = [] := by
                    intro l hl
                    rw [List.length_eq_zero_iff, List.filter_eq_nil_iff] at hl
                    simp only [answersFor, List.flatMap_eq_nil_iff, List.mem_filter, decide_eq_true_eq]
                    rintro x ⟨hx, hxid⟩
                    exact absurd (by simp only [decide_eq_true_eq]; exact hxid) (hl x.1.bare (List.mem_map.mpr ⟨x, hx, rfl⟩))
                  exact ⟨z _ (by omega), z _ (by omega)⟩
                have e0 : answersFor (q.id / 2) t.todo = q.samples := by
                  rw [h1, answersFor_append, answersFor_cons, hone.1, hone.2, answersFor_answer, if_pos hid]; simp
                have e1 : answersFor (q.id / 2) (t.todo.eraseIdx i) = [] := by rw [h2, answersFor_append, hone.1, hone.2]; rfl
                rcases hcase with ⟨tk, htk, hg, hf⟩ | ⟨hg, hf⟩
                · obtain ⟨_, tk', htk', hname, _⟩ := hlink.mine n _ hmem
                  rw [htk] at htk'
                  cases htk'
                  have e2 : takenFrom n r'.got = takenFrom n r.got ++ q.samples := by
                    rw [hg]
                    simp only [takenFrom, List.filter_append, List.map_append]
                    congr 1
                    rw [List.filter_eq_self.mpr (by intro x hx; obtain ⟨y, _, rfl⟩ := List.mem_map.mp hx; simp [hname]), List.map_map]
                    simp [Function.comp_def]
                  refine ⟨?_, fun g => ?_⟩
                  · simp only [e1, e2, List.append_nil]
                    have := h0.sub
                    rw [e0] at this
                    exact this
                  · simp only [e1, e2, List.append_nil]
                    have := h0.eq (hf g)
                    rw [e0] at this
                    exact this
                · refine ⟨?_, fun g => absurd g hf⟩
                  simp only [e1, hg, List.append_nil]
                  exact (List.sublist_append_left _ _).trans h0.sub
              · rw [if_neg hn] at ht1
                have h0 := h _ r hr n t1 ht1
                rcases hcase with ⟨tk, htk, hg, hf⟩ | ⟨hg, hf⟩
                · obtain ⟨_, tk', htk', hname, _⟩ := hlink.mine name _ hmem
                  rw [htk] at htk'
                  cases htk'
                  have e2 : takenFrom n r'.got = takenFrom n r.got := by
                    rw [hg]
                    simp only [takenFrom, List.filter_append, List.map_append]
                    have : ((q.samples.map fun x => (tk.table, x)).filter fun p => decide (p.1 = n)) = [] :=
                      List.filter_eq_nil_iff.mpr
                        (by intro x hx; obtain ⟨y, _, rfl⟩ := List.mem_map.mp hx; simp only [decide_eq_true_eq, hname]; exact fun g => hn g.symm)
                    rw [this]
                    simp
                  exact ⟨by rw [e2]; exact h0.sub, fun g => by rw [e2]; exact h0.eq (hf g)⟩
                · exact ⟨by rw [hg]; exact h0.sub, fun g => absurd g hf⟩
            have hold : ∀ r, v.streams.get? (q.id / 2) = some r → r.finished ≠ none → ∀ n t1,
                (v.tables.insert name { t with todo := t.todo.eraseIdx i }).get? n = some t1 → HandedTo (q.id / 2) r n t1 :=
              fun r hr hf => gotten r r hr (.inr ⟨rfl, hf⟩)
            split
            · rename_i hnone
              intro s r hr
              replace hnone : v.streams.get? (q.id / 2) = none := hnone
              exact rest (v.streams.get? (q.id / 2)) (fun r hr => by rw [hnone] at hr; cases hr) s r
                (by by_cases e : s = q.id / 2
                    · rw [if_pos e, ← e]; exact hr
                    · rw [if_neg e]; exact hr)
            · rename_i r hr
              replace hr : v.streams.get? (q.id / 2) = some r := hr
              split
              · rename_i hgone
                intro s r1 hr1
                refine rest (v.streams.get? (q.id / 2)) (fun r2 hr2 => ?_) s r1
                  (by by_cases e : s = q.id / 2
                      · rw [if_pos e, ← e]; exact hr1
                      · rw [if_neg e]; exact hr1)
                rw [hr] at hr2
                cases hr2
                exact hold r hr ((hA.ok _ r hr).inv.gone hgone).1
              · rename_i hgone
                unfold AsyncSampler.deliver at hal
                simp only [hev, if_true, hr, hgone] at hal
                unfold AsyncSampler.putRes at hal ⊢
                cases hx : r.onAnswer w q.samples st with
                | ok x =>
                  have hmem : q.bare ∈ pendOf v.tables name (q.id / 2) := by
                    rw [pendOf_some ht]
                    refine List.mem_filter.mpr ⟨?_, by simp only [decide_eq_true_eq]; exact hid⟩
                    refine List.mem_append_left _ (List.mem_append_left _ (List.mem_append_left _ (List.mem_map.mpr ⟨(q, st), ?_, rfl⟩)))
                    rw [h1]
                    simp [answers]
                  obtain ⟨_, tk, htk, _, _⟩ := (hA.link _ r hr).mine name _ hmem
                  refine Handed.putOwn (rest (some x.1) fun r2 e => ?_)
                  cases e
                  refine gotten r x.1 hr ?_
                  rcases onAnswer_got htk hx with ⟨g1, g2⟩ | g
                  · exact .inl ⟨tk, htk, g1, g2⟩
                  · exact .inr g
                | err c => rw [hx] at hal; simp at hal
                | died => rw [hx] at hal; simp at hal
          · rename_i hodd
            exact fun s r hr n t1 ht1 => others s r hr (by rw [answersFor_answer, if_neg (by unfold reqId; omega)]) n t1 ht1

theorem Handed.init (cfgs : AMap String Config) : Handed (AsyncSampler.init (newTables cfgs)) := by
  intro s r hr
  simp [AsyncSampler.init] at hr

theorem Handed.run {w : Wire} (hw : ∀ k, (w.content k).key = k) {cfgs : AMap String Config} {evs : List Event} {v : AsyncSampler}
    (h : (AsyncSampler.init (newTables cfgs)).run w evs = some v) (hp : Proper cfgs evs) : Handed v := by
  have := run_ind (P := fun pre v => Proper cfgs pre → AInv w cfgs pre v ∧ Handed v) (fun pre v e v' ih hs hpre => by
    obtain ⟨hA, hH⟩ := ih fun n a ha => hpre n a (List.mem_append_left _ ha)
    have hA' := hA.step hw (fun n a ha => hpre n a (List.mem_append_right _ ha)) hs
    exact ⟨hA', hH.step hA hs hA'.alive⟩) evs [] _ v
    (fun _ => ⟨AInv.init w cfgs, Handed.init cfgs⟩) h
  exact (this hp).2

theorem part_append {α : Type} (s : Nat) (a b : List (Nat × α)) : part s (a ++ b) = part s a ++ part s b := by simp [part]

theorem part_reqs (s : Nat) : ∀ l : List Req, part (reqId s) (l.flatMap fun r => r.samples.map (r.id, ·)) = (l.filter fun r => r.id = reqId s).flatMap fun r => r.samples
  | [] => rfl
  | r :: l => by
    rw [List.flatMap_cons, part_append, part_reqs s l, List.filter_cons]
    by_cases h : r.id = reqId s
    · simp only [h, decide_true, if_true, List.flatMap_cons]
      congr 1
      unfold part
      rw [List.filter_eq_self.mpr (by intro x hx; obtain ⟨y, _, rfl⟩ := List.mem_map.mp hx; simp), List.map_map]
      simp [Function.comp_def]
    · simp only [h, decide_false, Bool.false_eq_true, if_false]
      unfold part
      rw [List.filter_eq_nil_iff.mpr (by intro x hx; obtain ⟨y, _, rfl⟩ := List.mem_map.mp hx; simpa using h)]
      rfl

/-- What was taken for a request is what was answered to it and what is in hand for it. -/
theorem taken_part (s : Nat) (w : W) : part (reqId s) (Worker.taken w) =
    answersFor s w.out ++ ((w.terminate ++ live w.sampling).filter fun r => r.id = reqId s).flatMap fun r => r.samples := by
  unfold Worker.taken W.served
  rw [part_reqs, List.append_assoc, List.filter_append, List.flatMap_append]
  congr 1
  simp only [answersFor, List.filter_map, List.flatMap_map]
  rfl

end Verif.AsyncSampler
