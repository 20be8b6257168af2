import Verif.Spec.Worker
import Verif.Proofs.Worker
/-
Invariants of the table worker that hold for every schedule.
-/
namespace Verif.Worker
open Table (Op)

theorem applied_snoc (tr : List Op) (op : Op) : applied (tr ++ [op]) = applied tr ++ applied [op] := by
  simp [applied]

theorem callbacks_append (a b : List Out) : callbacks (a ++ b) = callbacks a ++ callbacks b := by
  simp [callbacks]

theorem answers_append (a b : List Out) : answers (a ++ b) = answers a ++ answers b := by
  simp [answers]

theorem callbacks_notify (l : List Nat) (s : Status) : callbacks (l.map (Out.notify · s)) = l.map (·, s) := by
  induction l with
  | nil => rfl
  | cons a l ih => simpa [callbacks] using ih

theorem answers_notify (l : List Nat) (s : Status) : answers (l.map (Out.notify · s)) = [] := by
  induction l with
  | nil => rfl
  | cons a l ih => simpa [answers] using ih

theorem callbacks_answer (l : List Req) (s : Status) : callbacks (l.map (Out.answer · s)) = [] := by
  induction l with
  | nil => rfl
  | cons a l ih => simpa [callbacks] using ih

theorem answers_answer (l : List Req) (s : Status) : answers (l.map (Out.answer · s)) = l.map (·, s) := by
  induction l with
  | nil => rfl
  | cons a l ih => simpa [answers] using ih

theorem Act.op_applied {a : Act} {op : Op} (h : a.op = some op) : applied [op] = [] := by
  cases a <;> simp [Act.op] at h <;> subst h <;> rfl

/-- The table is what the trace makes of the initial one. -/
structure Seq (t0 : Table) (w : W) : Prop where
  run : w.dead = false → t0.run w.trace = some w.table
  closed : w.table.limiter.cancelled = true ↔ Op.close ∈ w.trace
  seen : w.cancelSeen = true → Op.close ∈ w.trace

theorem Seq.step {t0 : Table} {w w' : W} {a : Act} (h : Seq t0 w) (hs : step w a = some w') : Seq t0 w' := by
  obtain ⟨hd, ht⟩ := tr_of_step hs
  have hrun := h.run hd
  have hex : ∀ op, Table.run t0 (w.trace ++ [op]) =
      match (w.table.step op).2 with | .died => none | _ => some (w.table.step op).1 :=
    fun op => Table.run_snoc hrun
  have hcl : ∀ op, (w.table.step op).1.limiter.cancelled = true ↔ Op.close ∈ w.trace ++ [op] := by
    intro op
    rw [Table.step_cancelled, h.closed]
    simp [eq_comm]
  have hsn : ∀ op, w.cancelSeen = true → Op.close ∈ w.trace ++ [op] := fun op e => List.mem_append_left _ (h.seen e)
  have hlook : (w.cancelSeen || w.table.limiter.cancelled) = true → Op.close ∈ w.trace := by
    intro e
    rcases Bool.or_eq_true_iff.mp e with e | e
    · exact h.seen e
    · exact h.closed.mp e
  cases ht
  case sectionOk op r hl e ho => exact ⟨fun _ => by simp only; rw [hex, e], hcl op, hsn op⟩
  case sectionErr op r hl e ho => exact ⟨fun _ => by simp only; rw [hex, e], hcl op, hsn op⟩
  case sectionDied op hl e ho => exact ⟨fun e => by simp at e, hcl op, hsn op⟩
  case insOk e => exact ⟨fun _ => by simp only; rw [hex, e], hcl _, hsn _⟩
  case insErr e => exact ⟨fun _ => by simp only; rw [hex, e], hcl _, hsn _⟩
  case insDied e => exact ⟨fun e => by simp at e, hcl _, hsn _⟩
  case smpFull e _ => exact ⟨fun _ => by simp only; rw [hex, e], hcl _, hsn _⟩
  case smpMore e _ => exact ⟨fun _ => by simp only; rw [hex, e], hcl _, hsn _⟩
  case smpErr e => exact ⟨fun _ => by simp only; rw [hex, e], hcl _, hsn _⟩
  case smpDied e => exact ⟨fun e => by simp at e, hcl _, hsn _⟩
  case idleStop => exact ⟨fun _ => hrun, h.closed, hlook⟩
  case idleWait => exact ⟨fun _ => hrun, h.closed, hlook⟩
  case idleFinish => exact ⟨fun _ => hrun, h.closed, hlook⟩
  all_goals exact ⟨fun _ => hrun, h.closed, h.seen⟩

theorem Seq.init {t0 : Table} (h : t0.limiter.cancelled = false) : Seq t0 (init t0) := by
  refine ⟨fun _ => rfl, ?_, ?_⟩ <;> simp [Worker.init, h]

/-- Where the accepted items are. -/
structure Order (w : W) : Prop where
  all : w.cancelSeen = false → applied w.trace ++ w.inserts ++ w.pendingInserts = w.accepted
  sub : (applied w.trace ++ w.inserts ++ w.pendingInserts).Sublist w.accepted

theorem Order.step {w w' : W} {a : Act} (h : Order w) (hs : step w a = some w') : Order w' := by
  obtain ⟨hd, ht⟩ := tr_of_step hs
  obtain ⟨h1, h2⟩ := h
  have key : ∀ {w' : W}, (w'.cancelSeen = false → w.cancelSeen = false) → w'.accepted = w.accepted →
      applied w'.trace ++ w'.inserts ++ w'.pendingInserts = applied w.trace ++ w.inserts ++ w.pendingInserts → Order w' :=
    fun e1 e2 e3 => ⟨fun e => by rw [e2, e3]; exact h1 (e1 e), by rw [e2, e3]; exact h2⟩
  cases ht
  case insertOk => exact ⟨fun e => by simp [← h1 e], by
    simp only [← List.append_assoc]; exact List.Sublist.append h2 (List.Sublist.refl _)⟩
  case insertFull => exact ⟨fun e => by simp [← h1 e], by
    simp only [← List.append_assoc]; exact List.Sublist.append h2 (List.Sublist.refl _)⟩
  case sectionOk op r hl e ho => exact key id rfl (by simp [applied_snoc, Act.op_applied ho])
  case sectionErr op r hl e ho => exact key id rfl (by simp [applied_snoc, Act.op_applied ho])
  case sectionDied op hl e ho => exact key id rfl (by simp [applied_snoc, Act.op_applied ho])
  case insOk i rest r hpc hi hc e => exact key id rfl (by simp only [applied_snoc, hi]; simp [applied])
  case insErr i rest r hpc hi hc e => exact key id rfl (by simp only [applied_snoc, hi]; simp [applied])
  case insDied i rest hpc hi hc e => exact key id rfl (by simp only [applied_snoc, hi]; simp [applied])
  case smpFull => exact key id rfl (by simp [applied])
  case smpMore => exact key id rfl (by simp [applied])
  case smpErr => exact key id rfl (by simp [applied])
  case smpDied => exact key id rfl (by simp [applied])
  case swapI hpc hi hp hsm => exact key id rfl (by simp [hi])
  case swapB hpc hi hp hsm hp' => exact key id rfl (by simp [hi])
  case idleStop =>
    simp only [looked]
    by_cases hc : w.table.limiter.cancelled = true
    · simp only [hc]
      refine ⟨by simp, List.Sublist.trans ?_ h2⟩
      simp
    · exact key (by simp [looked]; grind) rfl (by simp [looked, hc])
  case idleWait =>
    simp only [looked]
    by_cases hc : w.table.limiter.cancelled = true
    · simp only [hc]
      refine ⟨by simp, List.Sublist.trans ?_ h2⟩
      simp
    · exact key (by simp [looked]; grind) rfl (by simp [looked, hc])
  case idleFinish =>
    simp only [looked]
    by_cases hc : w.table.limiter.cancelled = true
    · simp only [hc]
      refine ⟨by simp, List.Sublist.trans ?_ h2⟩
      simp
    · exact key (by simp [looked]; grind) rfl (by simp [looked, hc])
  all_goals exact key id rfl rfl

theorem Order.init (t0 : Table) : Order (init t0) := ⟨fun _ => rfl, by simp [Worker.init, applied]⟩

/-- The callbacks of inserters. -/
structure Calls (w : W) : Prop where
  none : w.pc ≠ .top → w.pc ≠ .finish → w.notify = []
  all : w.refused = (callbacks w.out).map Prod.fst ++ w.notify ++ w.notifyList
  pend : w.notifyList ≠ [] → w.pendingInserts ≠ []

theorem Calls.step {w w' : W} {a : Act} (h : Calls w) (hs : step w a = some w') : Calls w' := by
  obtain ⟨hd, ht⟩ := tr_of_step hs
  obtain ⟨h0, h1, h2⟩ := h
  cases ht
  case insertOk => exact ⟨h0, h1, by simp⟩
  case insertFull => exact ⟨h0, by simp [h1], by simp⟩
  case wake => exact ⟨by simp, h1, h2⟩
  case top hpc => exact ⟨by simp, by simp [callbacks_append, callbacks_notify, h1, Function.comp_def], h2⟩
  case insNone hpc _ => exact ⟨fun _ _ => h0 (by simp [hpc]) (by simp [hpc]), h1, h2⟩
  case insOk hpc _ _ _ => exact ⟨fun _ _ => h0 (by simp [hpc]) (by simp [hpc]), h1, h2⟩
  case insErr hpc _ _ _ => exact ⟨fun _ _ => h0 (by simp [hpc]) (by simp [hpc]), h1, h2⟩
  case smpNone hpc _ => exact ⟨fun _ _ => h0 (by simp [hpc]) (by simp [hpc]), h1, h2⟩
  case smpBlocked hpc _ _ _ => exact ⟨fun _ _ => h0 (by simp [hpc]) (by simp [hpc]), h1, h2⟩
  case smpFull hpc _ _ _ _ _ =>
    exact ⟨fun _ _ => h0 (by simp [hpc]) (by simp [hpc]), by rw [callbacks_append]; simpa [callbacks] using h1, h2⟩
  case smpErr hpc _ _ _ _ => exact ⟨fun _ _ => h0 (by simp [hpc]) (by simp [hpc]), h1, h2⟩
  case moreWork => exact ⟨by simp, h1, h2⟩
  case swapI hpc _ _ _ =>
    have := h0 (by simp [hpc]) (by simp [hpc])
    exact ⟨by simp, by simp [h1, this], by simp [this]⟩
  case swapS => exact ⟨by simp, h1, h2⟩
  case swapB hpc _ _ _ _ =>
    have := h0 (by simp [hpc]) (by simp [hpc])
    exact ⟨by simp, by simp [h1, this], by simp [this]⟩
  case idleStop hpc _ _ _ _ hn _ =>
    have := h0 (by simp [hpc]) (by simp [hpc])
    refine ⟨fun _ _ => hn, ?_, ?_⟩ <;> simp only [looked, this] <;> split <;> simp_all
  case idleWait hpc _ _ _ _ hn _ =>
    have := h0 (by simp [hpc]) (by simp [hpc])
    refine ⟨fun _ _ => hn, ?_, ?_⟩ <;> simp only [looked, this] <;> split <;> simp_all
  case idleFinish hpc _ _ _ _ =>
    have := h0 (by simp [hpc]) (by simp [hpc])
    refine ⟨by simp, ?_, ?_⟩ <;> simp only [looked, this] <;> split <;> simp_all
  case finish hpc => exact ⟨by simp, by simp [callbacks_append, callbacks_answer, h1], h2⟩
  all_goals exact ⟨h0, h1, h2⟩

theorem Calls.init (t0 : Table) : Calls (init t0) := ⟨by simp [Worker.init], rfl, by simp [Worker.init]⟩

theorem workerSample_one {t : Table} {rl : Bool} {d : Draw} {l : List Sampled}
    (h : (t.step (.workerSample rl d)).2 = .ok (.samples l)) : ∃ s, l = [s] := by
  simp only [Table.step, Table.workerSample] at h
  split at h
  · simp at h
  · split at h
    · simp at h; exact ⟨_, h.symm⟩
    · simp at h
    · simp at h

theorem replies_snoc {t t' : Table} {ops : List Op} (op : Op) (h : t.run ops = some t') :
    t.replies (ops ++ [op]) = t.replies ops ++ [(t'.step op).2] := by
  induction ops generalizing t with
  | nil =>
    simp only [Table.run, Option.some.injEq] at h
    subst h
    simp only [List.nil_append, Table.replies]
    split <;> simp_all
  | cons o ops ih =>
    simp only [Table.run] at h
    simp only [List.cons_append, Table.replies]
    split at h
    · simp at h
    · rename_i hne
      rw [ih h]
      rfl

theorem drawn_snoc {t t' : Table} {ops : List Op} (op : Op) (h : t.run ops = some t') :
    drawn t (ops ++ [op]) = drawn t ops ++ samplesOf (t'.step op).2 := by
  simp only [drawn, replies_snoc op h, List.flatMap_append, List.flatMap_cons, List.flatMap_nil, List.append_nil]

@[simp] theorem live_nil : live [] = [] := rfl
@[simp] theorem live_none (l : List (Option Req)) : live (none :: l) = live l := rfl
@[simp] theorem live_some (r : Req) (l : List (Option Req)) : live (some r :: l) = r :: live l := rfl
@[simp] theorem live_append (a b : List (Option Req)) : live (a ++ b) = live a ++ live b := by simp [live]

theorem live_nulls {l : List (Option Req)} (h : ∀ o ∈ l, o = none) : live l = [] := by
  induction l with
  | nil => rfl
  | cons o l ih =>
    rw [h o (by simp)]
    exact ih fun x hx => h x (List.mem_cons_of_mem _ hx)

theorem live_keep (p : Req → Bool) (l : List (Option Req)) :
    live (keepUnexpired p l) = (live l).filter (fun r => !p r) := by
  induction l with
  | nil => rfl
  | cons o l ih =>
    have e : keepUnexpired p (o :: l) = (o.bind fun r => if p r then none else some r) :: keepUnexpired p l := rfl
    cases o with
    | none => rw [e]; simpa using ih
    | some r => rw [e]; by_cases hp : p r = true <;> simp [hp, ih]

theorem takeExpired_eq (p : Req → Bool) (l : List (Option Req)) : takeExpired p l = (live l).filter p := rfl

theorem bare_append (r : Req) (l : List Sampled) : Req.bare { r with samples := r.samples ++ l } = r.bare := rfl

theorem want_append (r : Req) (l : List Sampled) : Req.want { r with samples := r.samples ++ l } = r.want := rfl

theorem count_split {β : Type} [DecidableEq β] (f : Req → β) (p : Req → Bool) (l : List Req) (x : β) :
    ((l.filter p).map f).count x + ((l.filter fun r => !p r).map f).count x = (l.map f).count x := by
  induction l with
  | nil => rfl
  | cons r l ih =>
    by_cases hp : p r = true
    · simp only [List.filter_cons, hp, if_true, Bool.not_true, Bool.false_eq_true, if_false, List.map_cons, List.count_cons]
      omega
    · simp only [Bool.not_eq_true] at hp
      simp only [List.filter_cons, hp, if_true, Bool.not_false, Bool.false_eq_true, if_false, List.map_cons, List.count_cons]
      omega

/-- Where the sample requests are. -/
structure Served (w : W) : Prop where
  term : w.terminate ≠ [] → w.pc = .finish
  count : ∀ x, ((answers w.out).map fun a => a.1.bare).count x + (w.terminate.map Req.bare).count x +
    ((live w.sampling).map Req.bare).count x + ((live w.pendingSampling).map Req.bare).count x = w.asked.count x
  short : ∀ r, r ∈ w.terminate ∨ r ∈ live w.sampling ∨ r ∈ live w.pendingSampling → r.samples.length < r.want
  ok : ∀ r s, (r, s) ∈ answers w.out → (s = none ∧ r.samples.length = r.want) ∨
    ((s = some .deadlineExceeded ∨ s = some .cancelled ∧ w.cancelSeen = true) ∧ r.samples.length < r.want)
  order : ((((answers w.out).filter fun a => a.2 = none).map fun a => a.1.bare) ++ (live w.sampling).map Req.bare ++
    (live w.pendingSampling).map Req.bare).Sublist w.asked

theorem Served.step {w w' : W} {a : Act} (h : Served w) (hs : step w a = some w') : Served w' := by
  obtain ⟨hd, ht⟩ := tr_of_step hs
  obtain ⟨h0, h1, h2, h3, h4⟩ := h
  have hlk : ∀ now,
      (∀ x, ((answers w.out).map fun a => a.1.bare).count x + ((looked w now).terminate.map Req.bare).count x +
        ((live (looked w now).sampling).map Req.bare).count x +
        ((live (looked w now).pendingSampling).map Req.bare).count x = w.asked.count x) ∧
      (∀ r, r ∈ (looked w now).terminate ∨ r ∈ live (looked w now).sampling ∨ r ∈ live (looked w now).pendingSampling →
        r.samples.length < r.want) ∧
      (∀ r s, (r, s) ∈ answers w.out → (s = none ∧ r.samples.length = r.want) ∨
        ((s = some .deadlineExceeded ∨ s = some .cancelled ∧ (looked w now).cancelSeen = true) ∧ r.samples.length < r.want)) ∧
      ((((answers w.out).filter fun a => a.2 = none).map fun a => a.1.bare) ++ (live (looked w now).sampling).map Req.bare ++
        (live (looked w now).pendingSampling).map Req.bare).Sublist w.asked := by
    intro now
    simp only [looked, live_keep, takeExpired_eq]
    refine ⟨?_, ?_, ?_, ?_⟩
    · intro x
      have := h1 x
      have e1 := count_split Req.bare (expired w.table.limiter.cancelled now) (live w.sampling) x
      have e2 := count_split Req.bare (expired w.table.limiter.cancelled now) (live w.pendingSampling) x
      simp only [List.map_append, List.count_append]
      omega
    · intro r hr
      refine h2 r ?_
      simp only [List.mem_append, List.mem_filter] at hr
      grind
    · intro r s hr
      rcases h3 r s hr with h | ⟨h | ⟨h, h'⟩, h''⟩
      · exact .inl h
      · exact .inr ⟨.inl h, h''⟩
      · exact .inr ⟨.inr ⟨h, by simp [h']⟩, h''⟩
    · refine List.Sublist.trans ?_ h4
      exact List.Sublist.append (List.Sublist.append (List.Sublist.refl _) (List.filter_sublist.map _))
        (List.filter_sublist.map _)
  cases ht
  case request => 
    refine ⟨h0, ?_, ?_, h3, ?_⟩
    · intro x; have := h1 x; simp only [live_append, live_some, live_nil, List.map_append, List.count_append, List.map_cons, List.map_nil] at this ⊢
      simp only [Req.bare] at this ⊢; omega
    · intro r hr
      simp only [live_append, live_some, live_nil, List.mem_append, List.mem_singleton] at hr
      rcases hr with hr | hr | hr | hr
      · exact h2 r (.inl hr)
      · exact h2 r (.inr (.inl hr))
      · exact h2 r (.inr (.inr hr))
      · subst hr; simp [Req.want]; omega
    · simp only [live_append, live_some, live_nil, List.map_append, ← List.append_assoc]
      exact List.Sublist.append h4 (List.Sublist.refl _)
  case wake hpc => exact ⟨fun e => by have := h0 e; simp_all, h1, h2, h3, h4⟩
  case top hpc => 
    refine ⟨fun e => by have := h0 e; simp_all, ?_, h2, ?_, ?_⟩ <;> simp only [answers_append, answers_notify, List.append_nil] <;> assumption
  case insNone hpc _ => exact ⟨fun e => by have := h0 e; simp_all, h1, h2, h3, h4⟩
  case insOk hpc _ _ _ => exact ⟨fun e => by have := h0 e; simp_all, h1, h2, h3, h4⟩
  case insErr hpc _ _ _ => exact ⟨fun e => by have := h0 e; simp_all, h1, h2, h3, h4⟩
  case smpNone hpc hn =>
    refine ⟨fun e => by have := h0 e; simp_all, ?_, ?_, h3, ?_⟩
    · simpa [live_nulls hn] using h1
    · simpa [live_nulls hn] using h2
    · simpa [live_nulls hn] using h4
  case smpBlocked nulls r rest hpc he hn _ =>
    rw [he] at h1 h2 h4
    simp only [live_append, live_nulls hn, List.nil_append] at h1 h2 h4
    exact ⟨fun e => by have := h0 e; simp_all, h1, h2, h3, h4⟩
  case smpFull nulls r rest l hpc he hn _ hl hlen =>
    rw [he] at h1 h2 h4
    simp only [live_append, live_nulls hn, List.nil_append, live_some, List.map_cons, List.count_cons] at h1 h2 h4
    refine ⟨fun e => by have := h0 e; simp_all, ?_, ?_, ?_, ?_⟩
    · intro x
      have := h1 x
      simp only [answers_append, List.map_append, List.count_append]
      simp only [answers, List.filterMap_cons, List.filterMap_nil, List.map_cons, List.map_nil, bare_append, List.count_cons, List.count_nil] at this ⊢
      omega
    · intro x hx
      refine h2 x ?_
      rcases hx with hx | hx | hx
      · exact .inl hx
      · exact .inr (.inl (List.mem_cons_of_mem _ hx))
      · exact .inr (.inr hx)
    · intro x s hx
      simp only [answers_append, List.mem_append] at hx
      rcases hx with hx | hx
      · exact h3 x s hx
      · simp only [answers, List.filterMap_cons, List.filterMap_nil, List.mem_singleton, Prod.mk.injEq] at hx
        obtain ⟨rfl, rfl⟩ := hx
        exact .inl ⟨rfl, hlen⟩
    · simp only [answers_append, List.filter_append, List.map_append]
      simpa [answers, bare_append] using h4
  case smpMore nulls r rest l hpc he hn _ hl hlen =>
    rw [he] at h1 h2 h4
    simp only [live_append, live_nulls hn, List.nil_append, live_some, List.map_cons, List.count_cons] at h1 h2 h4
    refine ⟨fun e => by have := h0 e; simp_all, ?_, ?_, h3, ?_⟩
    · intro x
      have := h1 x
      simp only [live_some, List.map_cons, bare_append, List.count_cons]
      exact this
    · intro x hx
      simp only [live_some, List.mem_cons] at hx
      rcases hx with hx | (hx | hx) | hx
      · exact h2 x (.inl hx)
      · subst hx
        have := h2 r (.inr (.inl (by simp)))
        obtain ⟨s, rfl⟩ := workerSample_one hl
        simp only [List.length_append, List.length_singleton, want_append] at hlen this ⊢
        omega
      · exact h2 x (.inr (.inl (List.mem_cons_of_mem _ hx)))
      · exact h2 x (.inr (.inr hx))
    · simpa [bare_append] using h4
  case smpErr nulls r rest e hpc he hn _ _ =>
    rw [he] at h1 h2 h4
    simp only [live_append, live_nulls hn, List.nil_append] at h1 h2 h4
    exact ⟨fun e => by have := h0 e; simp_all, h1, h2, h3, h4⟩
  case smpDied nulls r rest hpc he hn _ _ =>
    rw [he] at h1 h2 h4
    simp only [live_append, live_nulls hn, List.nil_append] at h1 h2 h4
    exact ⟨fun e => by have := h0 e; simp_all, h1, h2, h3, h4⟩
  case moreWork hpc _ _ _ => exact ⟨fun e => by have := h0 e; simp_all, h1, h2, h3, h4⟩
  case swapI hpc _ _ _ => exact ⟨fun e => by have := h0 e; simp_all, h1, h2, h3, h4⟩
  case swapS hpc _ hsm _ =>
    rw [hsm] at h1 h2 h4
    exact ⟨fun e => by have := h0 e; simp_all, by simpa using h1, by simpa using h2, h3, by simpa using h4⟩
  case swapB hpc _ _ hsm _ =>
    rw [hsm] at h1 h2 h4
    exact ⟨fun e => by have := h0 e; simp_all, by simpa using h1, by simpa using h2, h3, by simpa using h4⟩
  case finish hpc =>
    refine ⟨by simp, ?_, ?_, ?_, ?_⟩
    · intro x; have := h1 x
      simp only [answers_append, answers_answer, List.map_append, List.count_append, List.map_map, Function.comp_def] at this ⊢
      simp only [List.map_nil, List.count_nil]
      omega
    · intro x hx; exact h2 x (.inr (by simpa using hx))
    · intro x s hx
      simp only [answers_append, answers_answer, List.mem_append, List.mem_map, Prod.mk.injEq] at hx
      rcases hx with hx | ⟨y, hy, rfl, rfl⟩
      · exact h3 x s hx
      · right
        refine ⟨?_, h2 y (.inl hy)⟩
        simp only [W.samplingStatus]
        split
        · exact .inr ⟨rfl, by assumption⟩
        · exact .inl rfl
    · have : (w.terminate.map fun r => (r, w.samplingStatus)).filter (fun a => decide (a.2 = none)) = [] := by
        simp only [List.filter_eq_nil_iff, List.mem_map]
        rintro a ⟨r, _, rfl⟩
        simp only [W.samplingStatus]
        split <;> simp
      simp only [answers_append, answers_answer, List.filter_append, this, List.append_nil]
      exact h4
  case idleStop now d hpc _ _ _ ht hn _ =>
    exact ⟨fun e => absurd ht e, fun x => (hlk now).1 x, (hlk now).2.1, (hlk now).2.2.1, (hlk now).2.2.2⟩
  case idleWait now d hpc _ _ _ ht hn _ =>
    exact ⟨fun e => absurd ht e, fun x => (hlk now).1 x, (hlk now).2.1, (hlk now).2.2.1, (hlk now).2.2.2⟩
  case idleFinish now d hpc _ _ _ ht =>
    exact ⟨fun _ => rfl, fun x => (hlk now).1 x, (hlk now).2.1, (hlk now).2.2.1, (hlk now).2.2.2⟩
  all_goals exact ⟨h0, h1, h2, h3, h4⟩

theorem Served.init (t0 : Table) : Served (init t0) := by
  refine ⟨?_, ?_, ?_, ?_, ?_⟩ <;> simp [Worker.init, answers]

/-- Every sample the table has produced is in exactly one request. -/
def Shared (t0 : Table) (w : W) : Prop :=
  w.dead = false → ∀ x, ((answers w.out).flatMap fun a => a.1.samples).count x + (w.terminate.flatMap Req.samples).count x +
    ((live w.sampling).flatMap Req.samples).count x + ((live w.pendingSampling).flatMap Req.samples).count x =
    (drawn t0 w.trace).count x

theorem flatMap_filter_count {β : Type} [DecidableEq β] (f : Req → List β) (p : Req → Bool) (l : List Req) (x : β) :
    ((l.filter p).flatMap f).count x + ((l.filter fun r => !p r).flatMap f).count x = (l.flatMap f).count x := by
  induction l with
  | nil => rfl
  | cons r l ih =>
    by_cases hp : p r = true
    · simp only [List.filter_cons, hp, if_true, Bool.not_true, Bool.false_eq_true, if_false, List.flatMap_cons, List.count_append]
      omega
    · simp only [Bool.not_eq_true] at hp
      simp only [List.filter_cons, hp, if_true, Bool.not_false, Bool.false_eq_true, if_false, List.flatMap_cons, List.count_append]
      omega

theorem updateItem_noSamples {t : Table} {op : Op} {l : List Sampled} (hop : (∃ us ds, op = .mutate us ds) ∨ op = .reset ∨
    op = .close ∨ ∃ i now d, op = .workerInsert i now d) : (t.step op).2 ≠ .ok (.samples l) := by
  have hr : ∀ r : Table × Res Unit, (Table.reply r).2 ≠ .ok (.samples l) := by
    intro r; unfold Table.reply; split <;> simp
  rcases hop with ⟨us, ds, rfl⟩ | rfl | rfl | ⟨i, now, d, rfl⟩
  · simp only [Table.step, Table.mutateItems]
    split
    · exact hr _
    · simp
    · simp
  · simp [Table.step]
  · simp [Table.step]
  · simp only [Table.step, Table.workerInsert]
    split
    · exact hr _
    · simp

theorem drawn_same {t t' : Table} {ops : List Op} {op : Op} (h : t.run ops = some t')
    (hn : ∀ l, (t'.step op).2 ≠ .ok (.samples l)) : drawn t (ops ++ [op]) = drawn t ops := by
  rw [drawn_snoc op h]
  unfold samplesOf
  split
  · rename_i l e; exact absurd e (hn l)
  · simp

theorem Act.op_kind {a : Act} {op : Op} (h : a.op = some op) : (∃ us ds, op = .mutate us ds) ∨ op = .reset ∨
    op = .close ∨ ∃ i now d, op = .workerInsert i now d := by
  cases a <;> simp [Act.op] at h <;> subst h <;> simp

theorem Shared.step {t0 : Table} {w w' : W} {a : Act} (h : Shared t0 w) (hq : Seq t0 w) (hs : step w a = some w') :
    Shared t0 w' := by
  obtain ⟨hd, ht⟩ := tr_of_step hs
  have hrun := hq.run hd
  have h := h hd
  have hlk : ∀ now x, ((answers w.out).flatMap fun a => a.1.samples).count x +
      ((looked w now).terminate.flatMap Req.samples).count x +
      ((live (looked w now).sampling).flatMap Req.samples).count x +
      ((live (looked w now).pendingSampling).flatMap Req.samples).count x = (drawn t0 w.trace).count x := by
    intro now x
    have := h x
    have e1 := flatMap_filter_count Req.samples (expired w.table.limiter.cancelled now) (live w.sampling) x
    have e2 := flatMap_filter_count Req.samples (expired w.table.limiter.cancelled now) (live w.pendingSampling) x
    simp only [looked, live_keep, takeExpired_eq, List.flatMap_append, List.count_append]
    omega
  cases ht
  case request => intro _ x; simpa using h x
  case sectionOk op r hl e ho =>
    intro _ x; simp only; rw [drawn_same hrun fun l => updateItem_noSamples (Act.op_kind ho)]; exact h x
  case sectionErr op r hl e ho =>
    intro _ x; simp only; rw [drawn_same hrun fun l => updateItem_noSamples (Act.op_kind ho)]; exact h x
  case sectionDied => intro e; simp at e
  case top => intro _ x; simp only [answers_append, answers_notify, List.append_nil]; exact h x
  case insOk => 
    intro _ x; simp only; rw [drawn_same hrun fun l => updateItem_noSamples (by simp)]; exact h x
  case insErr => 
    intro _ x; simp only; rw [drawn_same hrun fun l => updateItem_noSamples (by simp)]; exact h x
  case insDied => intro e; simp at e
  case smpNone hpc hn => intro _ x; simpa [live_nulls hn] using h x
  case smpBlocked nulls r rest hpc he hn _ =>
    intro _ x
    have := h x
    rw [he] at this
    simpa [live_nulls hn] using this
  case smpFull nulls r rest l hpc he hn _ hl hlen =>
    intro _ x
    have := h x
    rw [he] at this
    simp only [live_append, live_nulls hn, List.nil_append, live_some, List.flatMap_cons, List.count_append] at this
    simp only
    rw [drawn_snoc _ hrun, hl, samplesOf]
    simp only [answers_append, List.flatMap_append, List.count_append]
    simp only [answers, List.filterMap_cons, List.filterMap_nil, List.flatMap_cons, List.flatMap_nil, List.append_nil, List.count_append] at this ⊢
    omega
  case smpMore nulls r rest l hpc he hn _ hl hlen =>
    intro _ x
    have := h x
    rw [he] at this
    simp only [live_append, live_nulls hn, List.nil_append, live_some, List.flatMap_cons, List.count_append] at this
    simp only
    rw [drawn_snoc _ hrun, hl, samplesOf]
    simp only [live_some, List.flatMap_cons, List.count_append]
    omega
  case smpErr nulls r rest e hpc he hn _ hl =>
    intro _ x
    have := h x
    rw [he] at this
    simp only [live_append, live_nulls hn, List.nil_append] at this
    simp only
    rw [drawn_same hrun (by rw [hl]; simp)]
    exact this
  case smpDied => intro e; simp at e
  case swapS hpc _ hsm _ => intro _ x; have := h x; rw [hsm] at this; simpa using this
  case swapB hpc _ _ hsm _ => intro _ x; have := h x; rw [hsm] at this; simpa using this
  case idleStop now d _ _ _ _ _ _ _ => intro _ x; exact hlk now x
  case idleWait now d _ _ _ _ _ _ _ => intro _ x; exact hlk now x
  case idleFinish now d _ _ _ _ _ => intro _ x; exact hlk now x
  case finish =>
    intro _ x
    have := h x
    simp only [answers_append, answers_answer, List.flatMap_append, List.count_append, List.flatMap_map, List.flatMap_nil, List.count_nil] at this ⊢
    omega
  all_goals exact fun _ => h

theorem Shared.init (t0 : Table) : Shared t0 (init t0) := by
  intro _ x; simp [Worker.init, answers, drawn, Table.replies]

end Verif.Worker
