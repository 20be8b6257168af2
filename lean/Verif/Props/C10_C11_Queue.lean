import Verif.Proofs.QueueTable
import Verif.Props.TableDemo
/-
C10, C11: tables built by `Table.queue` and `Table.stack`. The abstract bounded queue and stack are in
`Spec/Queue.lean`.
-/
namespace Verif
open Table (Op)
open Spec (Buf Discipline Answer QueueOp)

theorem replies_eq {m : Discipline} {cap : Nat} (hcap : 0 < cap) (ops : List Op) : ∀ {t : Table} {b : Buf}, QInv m cap t b →
    (∀ op ∈ ops, QueueOp op) → (t.replies ops).map Spec.answer = b.answers m cap ops := by
  induction ops with
  | nil => intro t b _ _; rfl
  | cons op ops ih =>
    intro t b h hok
    obtain ⟨h1, h2⟩ := h.step hcap op (hok op (by simp))
    have ih := ih h1 (fun o ho => hok o (List.mem_cons_of_mem _ ho))
    have hnd : (t.step op).2 ≠ .died := by
      intro hd
      rw [hd] at h2
      have : ∀ b : Buf, (b.step m cap op).2 ≠ .died := by
        intro b
        cases op <;> simp only [Buf.step, Buf.deliver] <;> repeat' (first | split | simp)
      exact this b h2.symm
    have e : t.replies (op :: ops) = (t.step op).2 :: (t.step op).1.replies ops := by
      simp only [Table.replies]
    rw [e, List.map_cons, ih, h2]
    rfl

/-- C10: a table built by `Table.queue` answers every sequence of requests without explicit deletes
exactly like a bounded FIFO queue. -/
theorem C10_queue (cap : Nat) (hcap : 0 < cap) (ops : List Op) (h : ∀ op ∈ ops, QueueOp op) :
    ((Py.tableQueue cap hcap).init.replies ops).map Spec.answer = Buf.answers .queue cap ⟨[], false⟩ ops :=
  replies_eq hcap ops (QInv.make .queue cap hcap) h

/-- C11: a table built by `Table.stack` answers every sequence of requests without explicit deletes
exactly like a bounded stack. -/
theorem C11_stack (cap : Nat) (hcap : 0 < cap) (ops : List Op) (h : ∀ op ∈ ops, QueueOp op) :
    ((Py.tableStack cap hcap).init.replies ops).map Spec.answer = Buf.answers .stack cap ⟨[], false⟩ ops :=
  replies_eq hcap ops (QInv.make .stack cap hcap) h

/-! What the abstract machines deliver, in terms of the answers alone. -/

/-- The keys of the inserts that were answered with success. -/
def acceptedKeys : List (Op × Answer) → List Key
  | [] => []
  | (.insert i _ _, .done) :: l | (.insertResume i _ _, .done) :: l | (.workerInsert i _ _, .done) :: l =>
    i.key :: acceptedKeys l
  | _ :: l => acceptedKeys l

/-- The keys of the delivered items. -/
def deliveredKeys : List Answer → List Key
  | [] => []
  | .delivered d :: l => d.map Item.key ++ deliveredKeys l
  | _ :: l => deliveredKeys l

/-- The buffer after a sequence of requests. -/
def bufAfter (m : Discipline) (cap : Nat) (b : Buf) (ops : List Op) : Buf :=
  ops.foldl (fun b op => (b.step m cap op).1) b

theorem setPriority_keys (b : Buf) (k : Key) (p : Pri) : (b.setPriority k p).items.map Item.key = b.items.map Item.key := by
  simp only [Buf.setPriority, List.map_map]
  apply List.map_congr_left
  intro j _
  simp only [Function.comp]; split <;> rfl

theorem setPriorities_keys (us : List (Key × Pri)) : ∀ (b : Buf),
    (b.setPriorities us).items.map Item.key = b.items.map Item.key := by
  induction us with
  | nil => intro b; rfl
  | cons u us ih =>
    intro b
    simp only [Buf.setPriorities, List.foldl_cons] at ih ⊢
    rw [ih, setPriority_keys]

/-- What goes in comes out: in the same order for a queue, in some order for a stack. -/
def Conserved : Discipline → List Key → List Key → Prop
  | .queue, xs, ys => xs = ys
  | .stack, xs, ys => xs.Perm ys

theorem Conserved.of_eq {m : Discipline} {xs ys : List Key} (h : xs = ys) : Conserved m xs ys := by
  cases m
  · exact h
  · exact h ▸ List.Perm.refl _
theorem Conserved.perm {m : Discipline} {xs ys : List Key} (h : Conserved m xs ys) : xs.Perm ys := by
  cases m
  · exact List.Perm.of_eq h
  · exact h
theorem Conserved.trans {m : Discipline} {xs ys zs : List Key} (h : Conserved m xs ys) (h' : Conserved m ys zs) :
    Conserved m xs zs := by
  cases m
  · exact Eq.trans h h'
  · exact List.Perm.trans h h'
theorem Conserved.append_right {m : Discipline} {xs ys : List Key} (h : Conserved m xs ys) (l : List Key) :
    Conserved m (xs ++ l) (ys ++ l) := by
  cases m
  · exact congrArg (· ++ l) h
  · exact List.Perm.append_right l h
theorem Conserved.append_left {m : Discipline} {xs ys : List Key} (h : Conserved m xs ys) (l : List Key) :
    Conserved m (l ++ xs) (l ++ ys) := by
  cases m
  · exact congrArg (l ++ ·) h
  · exact List.Perm.append_left l h

/-- One request that leads to buffer `b'` and answer `a`, as a conservation law. -/
def StepOk (m : Discipline) (cap : Nat) (b : Buf) (op : Op) (r : Buf × Answer) : Prop :=
  (∀ k ∈ acceptedKeys [(op, r.2)], k ∉ b.items.map Item.key) →
  Conserved m (b.items.map Item.key ++ acceptedKeys [(op, r.2)]) (deliveredKeys [r.2] ++ r.1.items.map Item.key) ∧
  (b.items.length ≤ cap → r.1.items.length ≤ cap)

theorem queue_step_keys (m : Discipline) (cap : Nat) (b : Buf) (op : Op) (hr : op ≠ .reset) :
    StepOk m cap b op (b.step m cap op) := by
  have hhas : ∀ k, b.has k = true ↔ k ∈ b.items.map Item.key := by
    intro k; simp [Buf.has, List.any_eq_true]
  have deliv : ∀ n op, acceptedKeys [(op, (b.deliver n).2)] = [] → StepOk m cap b op (b.deliver n) := by
    intro n op h _
    rw [h]
    refine ⟨Conserved.of_eq ?_, fun h => by simp only [Buf.deliver, List.length_drop]; omega⟩
    simp only [Buf.deliver, deliveredKeys, List.map_map, List.append_nil]
    rw [show (Item.key ∘ fun i : Item => { i with timesSampled := 1 }) = Item.key from rfl, ← List.map_append,
      List.take_append_drop]
  have stay : ∀ (b' : Buf) (a : Answer) (op : Op), b'.items.map Item.key = b.items.map Item.key →
      (∀ d, a ≠ .delivered d) → acceptedKeys [(op, a)] = [] → StepOk m cap b op (b', a) := by
    intro b' a op h0 h1 h2 _
    have h3 : deliveredKeys [a] = [] := by
      cases a <;> simp_all [deliveredKeys]
    have h4 := congrArg List.length h0
    simp only [List.length_map] at h4
    refine ⟨Conserved.of_eq ?_, fun h => by simp only; omega⟩
    simp only [h2, h3, h0, List.append_nil, List.nil_append]
  have putk : ∀ (i : Item) (op : Op), b.items.length < cap → acceptedKeys [(op, .done)] = [i.key] →
      StepOk m cap b op (b.put m i, .done) := by
    intro i op hlt ha _
    simp only [ha, deliveredKeys, List.nil_append]
    cases m
    · simp [Buf.put, Conserved]; omega
    · simp only [Buf.put, List.map_cons, List.length_cons, Conserved]
      exact ⟨List.perm_append_singleton _ _, by omega⟩
  have acc : ∀ (i : Item) (now : Int) (op : Op), b.items.length < cap → acceptedKeys [(op, .done)] = [i.key] →
      StepOk m cap b op (b.accept m i now, .done) := by
    intro i now op hlt ha hnew
    have hn := hnew i.key (by simp [ha])
    have : b.has i.key = false := by
      cases hb : b.has i.key with
      | false => rfl
      | true => exact absurd ((hhas _).mp hb) hn
    simp only [Buf.accept, this] at hnew ⊢
    exact putk { i with insertedAt := now } op hlt ha hnew
  cases op with
  | insert i now d =>
    simp only [Buf.step]
    split
    · exact stay _ _ _ rfl (by simp) rfl
    · split
      · rename_i h2
        intro hnew
        exact absurd ((hhas _).mp h2) (hnew i.key (by simp [acceptedKeys]))
      · split
        · exact stay _ _ _ rfl (by simp) rfl
        · split
          · rename_i h4
            exact putk { i with insertedAt := now } _ h4 rfl
          · exact stay _ _ _ rfl (by simp) rfl
  | insertResume i now d =>
    simp only [Buf.step]
    split
    · exact stay _ _ _ rfl (by simp) rfl
    · split
      · rename_i h4
        exact acc i now _ h4 rfl
      · exact stay _ _ _ rfl (by simp) rfl
  | workerInsert i now d =>
    simp only [Buf.step]
    split
    · rename_i h4
      exact acc i now _ h4 rfl
    · exact stay _ _ _ rfl (by simp) rfl
  | mutate us ds => exact stay _ _ _ (setPriorities_keys us b) (by simp) rfl
  | sample n ds =>
    simp only [Buf.step]
    split
    · split <;> exact stay _ _ _ rfl (by simp) rfl
    · exact deliv _ _ rfl
  | sampleResume n ds =>
    simp only [Buf.step]
    split
    · exact stay _ _ _ rfl (by simp) rfl
    · split
      · exact stay _ _ _ rfl (by simp) rfl
      · exact deliv _ _ rfl
  | workerSample rl d =>
    simp only [Buf.step]
    split
    · exact stay _ _ _ rfl (by simp) rfl
    · exact deliv _ _ rfl
  | reset => exact absurd rfl hr
  | close => exact stay _ _ _ rfl (by simp) rfl

theorem acceptedKeys_cons (x : Op × Answer) (l : List (Op × Answer)) :
    acceptedKeys (x :: l) = acceptedKeys [x] ++ acceptedKeys l := by
  obtain ⟨op, a⟩ := x
  cases op <;> cases a <;> simp [acceptedKeys]

theorem deliveredKeys_cons (a : Answer) (l : List Answer) : deliveredKeys (a :: l) = deliveredKeys [a] ++ deliveredKeys l := by
  cases a <;> simp [deliveredKeys]

theorem queue_keys (m : Discipline) (cap : Nat) (ops : List Op) : ∀ (b : Buf), (∀ op ∈ ops, op ≠ .reset) →
    (b.items.map Item.key ++ acceptedKeys (ops.zip (b.answers m cap ops))).Nodup →
    Conserved m (b.items.map Item.key ++ acceptedKeys (ops.zip (b.answers m cap ops)))
      (deliveredKeys (b.answers m cap ops) ++ (bufAfter m cap b ops).items.map Item.key) ∧
    (b.items.length ≤ cap → (bufAfter m cap b ops).items.length ≤ cap) := by
  induction ops with
  | nil => intro b _ _; exact ⟨Conserved.of_eq (by simp [acceptedKeys, deliveredKeys, Buf.answers, bufAfter]), id⟩
  | cons op ops ih =>
    intro b hr hnd
    simp only [Buf.answers, List.zip_cons_cons] at hnd ⊢
    rw [acceptedKeys_cons] at hnd ⊢
    rw [deliveredKeys_cons, bufAfter, List.foldl_cons]
    have hnew : ∀ k ∈ acceptedKeys [(op, (b.step m cap op).2)], k ∉ b.items.map Item.key := by
      intro k hk hkb
      rw [← List.append_assoc, List.nodup_append] at hnd
      obtain ⟨h1, _, _⟩ := hnd
      rw [List.nodup_append] at h1
      exact h1.2.2 k hkb k hk rfl
    obtain ⟨s1, s2⟩ := queue_step_keys m cap b op (hr op (by simp)) hnew
    rw [← List.append_assoc] at hnd ⊢
    have hnd' : ((b.step m cap op).1.items.map Item.key ++
        acceptedKeys (ops.zip ((b.step m cap op).1.answers m cap ops))).Nodup := by
      have := (s1.perm.append_right (acceptedKeys (ops.zip ((b.step m cap op).1.answers m cap ops)))).nodup_iff.mp hnd
      rw [List.append_assoc] at this
      exact (List.nodup_append.mp this).2.1
    obtain ⟨i1, i2⟩ := ih (b.step m cap op).1 (fun o ho => hr o (List.mem_cons_of_mem _ ho)) hnd'
    refine ⟨(s1.append_right _).trans ?_, fun h => i2 (s2 h)⟩
    rw [List.append_assoc, List.append_assoc]
    exact i1.append_left _

/-- C10: as long as no key is accepted twice (and the queue is not reset), the accepted keys, in the order
of acceptance, are the delivered ones, in the order of delivery, followed by at most `cap` keys that still
wait: nothing is lost, duplicated or reordered. -/
theorem C10_exactly_once_in_order (cap : Nat) (hcap : 0 < cap) (ops : List Op) (h : ∀ op ∈ ops, QueueOp op)
    (hr : ∀ op ∈ ops, op ≠ .reset)
    (hd : (acceptedKeys (ops.zip (((Py.tableQueue cap hcap).init.replies ops).map Spec.answer))).Nodup) :
    ∃ waiting : List Key, waiting.length ≤ cap ∧
      acceptedKeys (ops.zip (((Py.tableQueue cap hcap).init.replies ops).map Spec.answer)) =
        deliveredKeys (((Py.tableQueue cap hcap).init.replies ops).map Spec.answer) ++ waiting := by
  rw [C10_queue cap hcap ops h] at hd ⊢
  obtain ⟨h1, h2⟩ := queue_keys .queue cap ops ⟨[], false⟩ hr (by simpa using hd)
  refine ⟨(bufAfter .queue cap ⟨[], false⟩ ops).items.map Item.key, by simpa using h2 (by simp), ?_⟩
  simpa [Conserved] using h1

/-- C11: under the same conditions every accepted key is either delivered once or still waiting. -/
theorem C11_exactly_once (cap : Nat) (hcap : 0 < cap) (ops : List Op) (h : ∀ op ∈ ops, QueueOp op)
    (hr : ∀ op ∈ ops, op ≠ .reset)
    (hd : (acceptedKeys (ops.zip (((Py.tableStack cap hcap).init.replies ops).map Spec.answer))).Nodup) :
    ∃ waiting : List Key, waiting.length ≤ cap ∧
      (acceptedKeys (ops.zip (((Py.tableStack cap hcap).init.replies ops).map Spec.answer))).Perm
        (deliveredKeys (((Py.tableStack cap hcap).init.replies ops).map Spec.answer) ++ waiting) := by
  rw [C11_stack cap hcap ops h] at hd ⊢
  obtain ⟨h1, h2⟩ := queue_keys .stack cap ops ⟨[], false⟩ hr (by simpa using hd)
  refine ⟨(bufAfter .stack cap ⟨[], false⟩ ops).items.map Item.key, by simpa using h2 (by simp), ?_⟩
  simpa [Conserved] using h1

/-! Concrete runs: a queue and a stack of capacity two; the third insert has to wait and is repeated after
a sample. -/
def queueOps : List Op :=
  [.sample 1 (fun _ => draw 0), .insert (demoItem 1 1 10 100) 1 (draw 0), .insert (demoItem 2 1 10 100) 2 (draw 0),
   .insert (demoItem 3 1 10 100) 3 (draw 0), .workerSample false (draw 0), .insertResume (demoItem 3 1 10 100) 4 (draw 0),
   .mutate [(3, .val 7)] [], .sample 5 (fun _ => draw 0), .sample 5 (fun _ => draw 0)]

example : ∀ op ∈ queueOps, QueueOp op := by
  intro op h
  simp only [queueOps, List.mem_cons, List.not_mem_nil, or_false] at h
  rcases h with rfl | rfl | rfl | rfl | rfl | rfl | rfl | rfl | rfl <;> simp [QueueOp, demoItem]
example : deliveredKeys (((Py.tableQueue 2 (by decide)).init.replies queueOps).map Spec.answer) = [1, 2, 3] ∧
    acceptedKeys (queueOps.zip (((Py.tableQueue 2 (by decide)).init.replies queueOps).map Spec.answer)) = [1, 2, 3] := by
  decide +kernel
example : deliveredKeys (((Py.tableStack 2 (by decide)).init.replies queueOps).map Spec.answer) = [2, 3, 1] := by
  decide +kernel

/-- The exclusion of explicit deletes is necessary: they permanently use up capacity of the limiter. After
two inserts and two deletes a queue of capacity two takes only one further item. -/
theorem C10_deletes_reduce_capacity :
    ((Py.tableQueue 2 (by decide)).init.replies
      [.insert (demoItem 1 1 10 100) 1 (draw 0), .insert (demoItem 2 1 10 100) 2 (draw 0), .mutate [] [1, 2],
       .insert (demoItem 3 1 10 100) 3 (draw 0), .insert (demoItem 4 1 10 100) 4 (draw 0)]).map Spec.answer =
    [.done, .done, .done, .done, .blocked] := by decide +kernel

end Verif
