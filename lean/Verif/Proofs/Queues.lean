import Verif.Spec.Queues
/-
Both queues are first-in first-out.
-/
namespace Verif.QEvent
variable {α : Type}

theorem accepted_snoc (es : List (QEvent α)) (e : QEvent α) : accepted (es ++ [e]) = accepted es ++ accepted [e] := by
  simp [accepted]

theorem delivered_snoc (es : List (QEvent α)) (e : QEvent α) : delivered (es ++ [e]) = delivered es ++ delivered [e] := by
  simp [delivered]

end Verif.QEvent

namespace Verif.BQueue
open QEvent
variable {α : Type}

theorem slot_inj {cap a b lo hi : Nat} (h : a % cap = b % cap) (ha : lo ≤ a) (hb : lo ≤ b) (ha' : a < hi) (hb' : b < hi)
    (hc : hi ≤ lo + cap) : a = b := by
  have e1 := Nat.div_add_mod a cap
  have e2 := Nat.div_add_mod b cap
  have : a / cap = b / cap := by
    rcases Nat.lt_trichotomy (a / cap) (b / cap) with hlt | he | hlt
    · exfalso
      have := Nat.mul_le_mul_left cap hlt
      rw [Nat.mul_succ] at this
      omega
    · exact he
    · exfalso
      have := Nat.mul_le_mul_left cap hlt
      rw [Nat.mul_succ] at this
      omega
  rw [this] at e1
  omega

/-- The buffer holds the items accepted and not delivered. -/
structure Buf (cap : Nat) (acc : List (Option α)) (s : S α) : Prop where
  cap_eq : s.cap = cap
  len : acc.length = s.pushes
  le : s.pops ≤ s.pushes
  room : s.pushes ≤ s.pops + cap
  slots : ∀ i, s.pops ≤ i → i < s.pushes → acc[i]? = some (s.buffer (i % cap))

structure Inv (cap : Nat) (es : List (QEvent α)) (s : S α) : Prop where
  buf : Buf cap (accepted es) s
  del : delivered es = (accepted es).take s.pops
  real : ∀ x ∈ accepted es, x.isSome
  last : s.last = true ↔ hasLast es
  closed : s.closed = true ↔ hasClose es ∨ (hasLast es ∧ s.pushes = s.pops)

theorem Inv.init (cap : Nat) : Inv cap [] (init cap : S α) := by
  refine ⟨⟨rfl, rfl, Nat.le_refl _, by simp [BQueue.init], ?_⟩, rfl, by simp [accepted], ?_, ?_⟩
  · intro i _ h; simp [BQueue.init] at h
  · simp [BQueue.init, hasLast]
  · simp [BQueue.init, hasLast, hasClose]

theorem Inv.pending {cap : Nat} {es : List (QEvent α)} {s : S α} (h : Inv cap es s) :
    pending es = (accepted es).drop s.pops ∧ (pending es).length = s.pushes - s.pops := by
  have hl : (delivered es).length = s.pops := by
    rw [h.del, List.length_take, h.buf.len]
    have := h.buf.le
    omega
  simp [QEvent.pending, hl, h.buf.len]

/-- Taking one item. -/
theorem Buf.pop {cap : Nat} {acc : List (Option α)} {s : S α} (h : Buf cap acc s) (hlt : s.pops < s.pushes) :
    acc[s.pops]? = some (s.buffer (s.pops % s.cap)) ∧ Buf cap acc { s with
      buffer := fun i => if i = s.pops % s.cap then none else s.buffer i
      pops := s.pops + 1 } := by
  refine ⟨h.cap_eq ▸ h.slots s.pops (Nat.le_refl _) hlt, h.cap_eq, h.len, hlt, ?_, ?_⟩
  · have := h.room
    simp only
    omega
  · intro i h1 h2
    simp only at h1 h2 ⊢
    rw [if_neg]
    · exact h.slots i (by omega) h2
    · intro hm
      rw [h.cap_eq] at hm
      have := slot_inj hm (lo := s.pops) (hi := s.pushes) (by omega) (Nat.le_refl _) h2 hlt h.room
      omega

theorem Buf.takeBatch {cap : Nat} {acc : List (Option α)} {s : S α} (h : Buf cap acc s) (n : Nat) (hn : s.pops + n ≤ s.pushes) :
    (takeBatch s n).2 = (acc.drop s.pops).take n ∧ Buf cap acc (takeBatch s n).1 ∧
      (takeBatch s n).1.pops = s.pops + n ∧ (takeBatch s n).1.pushes = s.pushes ∧
      (takeBatch s n).1.closed = s.closed ∧ (takeBatch s n).1.last = s.last := by
  induction n generalizing s with
  | zero => simp [BQueue.takeBatch, h]
  | succ n ih =>
    obtain ⟨h1, h2⟩ := h.pop (by omega)
    obtain ⟨i1, i2, i3, i4, i5, i6⟩ := ih h2 (by simp only; omega)
    simp only [BQueue.takeBatch]
    refine ⟨?_, i2, by rw [i3]; simp only; omega, i4, i5, i6⟩
    rw [i1]
    obtain ⟨hlt, he⟩ := List.getElem?_eq_some_iff.mp h1
    rw [List.drop_eq_getElem_cons hlt, he, List.take_succ_cons]

theorem hasLast_snoc {es : List (QEvent α)} {e : QEvent α} : hasLast (es ++ [e]) ↔ hasLast es ∨ e = .setLast := by
  simp [hasLast, eq_comm]

theorem hasClose_snoc {es : List (QEvent α)} {e : QEvent α} : hasClose (es ++ [e]) ↔ hasClose es ∨ e = .close := by
  simp [hasClose, eq_comm]

/-- An event that changes nothing. -/
theorem Inv.skip {cap : Nat} {es : List (QEvent α)} {s : S α} (h : Inv cap es s) {e : QEvent α} (h1 : accepted [e] = [])
    (h2 : delivered [e] = []) (h3 : e ≠ .setLast) (h4 : e ≠ .close) : Inv cap (es ++ [e]) s := by
  constructor
  · rw [accepted_snoc, h1, List.append_nil]; exact h.buf
  · rw [accepted_snoc, delivered_snoc, h1, h2, List.append_nil, List.append_nil]; exact h.del
  · rw [accepted_snoc, h1, List.append_nil]; exact h.real
  · rw [hasLast_snoc]; simp [h3, h.last]
  · rw [hasLast_snoc, hasClose_snoc]; simp [h3, h4, h.closed]

theorem Inv.step {cap : Nat} {es : List (QEvent α)} {s s' : S α} {e : QEvent α} (h : Inv cap es s) (hs : Step s e s') :
    Inv cap (es ++ [e]) s' := by
  have hlen := h.buf.len
  have hle := h.buf.le
  have hroom := h.buf.room
  cases hs with
  | push hp =>
    rename_i x ok
    unfold BQueue.push at hp
    split at hp
    · split at hp
      · simp only [Option.some.injEq, Prod.mk.injEq] at hp
        obtain ⟨rfl, rfl⟩ := hp
        exact h.skip rfl rfl (by simp) (by simp)
      · rename_i h1 h2
        simp only [Option.some.injEq, Prod.mk.injEq] at hp
        obtain ⟨rfl, rfl⟩ := hp
        simp only [Bool.or_eq_true, not_or, Bool.not_eq_true] at h2
        simp only [h2.1, h2.2, Bool.or_self, Bool.false_or, decide_eq_true_eq] at h1
        rw [h.buf.cap_eq] at h1
        have hacc : accepted (es ++ [.push x true]) = accepted es ++ [some x] := by rw [accepted_snoc]; rfl
        constructor
        · refine ⟨h.buf.cap_eq, by rw [hacc]; simp [hlen], by simp only; omega, by simp only; omega, ?_⟩
          intro i hi1 hi2
          simp only at hi1 hi2 ⊢
          rw [hacc]
          by_cases he : i = s.pushes
          · rw [he, ← hlen]
            simp [h.buf.cap_eq]
          · rw [List.getElem?_append_left (by omega), if_neg]
            · exact h.buf.slots i hi1 (by omega)
            · intro hm
              rw [h.buf.cap_eq] at hm
              exact he (slot_inj hm (lo := s.pops) (hi := s.pushes + 1) hi1 (by omega) hi2 (by omega) (by omega))
        · rw [delivered_snoc, hacc]
          simp only [delivered, List.flatMap_cons, List.flatMap_nil, List.append_nil]
          rw [List.take_append_of_le_length (by omega)]
          exact h.del
        · rw [hacc]
          intro y hy
          rcases List.mem_append.mp hy with hy | hy
          · exact h.real y hy
          · simp only [List.mem_singleton] at hy; subst hy; rfl
        · rw [hasLast_snoc]; simp [h.last]
        · rw [hasLast_snoc, hasClose_snoc]
          have h3 : ¬ hasLast es := by rw [← h.last, h2.2]; simp
          have h4 : ¬ hasClose es := by
            intro hc
            have := h.closed.mpr (.inl hc)
            simp [h2.1] at this
          simp [h2.1, h3, h4]
    · simp at hp
  | pop hp =>
    rename_i r
    unfold BQueue.pop at hp
    split at hp
    · split at hp
      · simp only [Option.some.injEq, Prod.mk.injEq] at hp
        obtain ⟨rfl, rfl⟩ := hp
        exact h.skip rfl rfl (by simp) (by simp)
      · rename_i h1 h2
        simp only [Option.some.injEq, Prod.mk.injEq] at hp
        obtain ⟨rfl, rfl⟩ := hp
        simp only [h2, Bool.false_or, decide_eq_true_eq] at h1
        obtain ⟨b1, b2⟩ := h.buf.pop h1
        have hacc : accepted (es ++ [.pop (some (s.buffer (s.pops % s.cap)))]) = accepted es := by
          rw [accepted_snoc]; simp [accepted]
        have hdel : delivered (es ++ [.pop (some (s.buffer (s.pops % s.cap)))]) = (accepted es).take (s.pops + 1) := by
          rw [delivered_snoc, h.del]
          simp only [delivered, List.flatMap_cons, List.flatMap_nil, List.append_nil]
          rw [List.take_succ, b1]
          rfl
        have hl : ∀ x, hasLast (es ++ [.pop x]) ↔ hasLast es := fun x => by rw [hasLast_snoc]; simp
        have hc : ∀ x, hasClose (es ++ [.pop x]) ↔ hasClose es := fun x => by rw [hasClose_snoc]; simp
        have hnc : ¬ hasClose es := fun hc => h2 (h.closed.mpr (.inl hc))
        have hcl : s.closed = false := by simpa using h2
        split
        · rename_i h3
          refine ⟨by rw [hacc]; exact ⟨b2.1, b2.2, b2.3, b2.4, b2.5⟩, by rw [hacc, hdel], by rw [hacc]; exact h.real, ?_, ?_⟩
          · rw [hl]; exact h.last
          · rw [hl, hc]
            simp only [true_iff]
            exact .inr ⟨h.last.mp h3.2, h3.1⟩
        · rename_i h3
          refine ⟨by rw [hacc]; exact b2, by rw [hacc, hdel], by rw [hacc]; exact h.real, ?_, ?_⟩
          · rw [hl]; exact h.last
          · rw [hl, hc]
            simp only [hcl, Bool.false_eq_true, false_iff]
            rintro (hx | ⟨hx, hy⟩)
            · exact hnc hx
            · exact h3 ⟨hy, h.last.mpr hx⟩
    · simp at hp
  | popBatch hp =>
    rename_i n ex r
    unfold BQueue.popBatch at hp
    have hskip : ∀ c, r = .err c → Inv cap (es ++ [.popBatch n ex r]) s := by
      rintro c rfl
      exact h.skip rfl rfl (by simp) (by simp)
    split at hp
    · cases hp; exact hskip _ rfl
    · simp only at hp
      split at hp
      · simp at hp
      · split at hp
        · cases hp; exact hskip _ rfl
        · split at hp
          · cases hp; exact hskip _ rfl
          · split at hp
            · cases hp; exact hskip _ rfl
            · rename_i h1 h2 h3 h4 h5
              simp only [Bool.not_eq_true] at h4 h5
              simp only [h4, h5, Bool.false_or, Bool.or_false, Bool.not_false, Bool.and_true, Bool.not_eq_true', Bool.not_eq_false,
                decide_eq_true_eq, decide_eq_false_iff_not, Decidable.not_not] at h3
              obtain ⟨t1, t2, t3, t4, t5, t6⟩ := h.buf.takeBatch n (by omega)
              rw [t6, h5] at hp
              simp only [Bool.false_eq_true, and_false, if_false, Option.some.injEq, Prod.mk.injEq] at hp
              obtain ⟨rfl, rfl⟩ := hp
              have hacc : accepted (es ++ [.popBatch n ex (.ok (takeBatch s n).2)]) = accepted es := by
                rw [accepted_snoc]; simp [accepted]
              have hnl : ¬ hasLast es := by rw [← h.last, h5]; simp
              have hncl : ¬ hasClose es := fun hc => by
                have := h.closed.mpr (.inl hc)
                simp [h4] at this
              refine ⟨by rw [hacc]; exact t2, ?_, by rw [hacc]; exact h.real, ?_, ?_⟩
              · rw [hacc, delivered_snoc, h.del, t3]
                simp only [delivered, List.flatMap_cons, List.flatMap_nil, List.append_nil]
                rw [t1, List.take_add]
              · rw [hasLast_snoc, t6, h5]; simp [hnl]
              · rw [hasLast_snoc, hasClose_snoc, t5, h4]; simp [hnl, hncl]
  | setLast =>
    have hacc : accepted (es ++ [.setLast]) = accepted es := by rw [accepted_snoc]; simp [accepted]
    have hdel : delivered (es ++ [.setLast]) = delivered es := by rw [delivered_snoc]; simp [delivered]
    unfold BQueue.setLast
    simp only
    split
    · rename_i he
      refine ⟨by rw [hacc]; exact ⟨h.buf.1, h.buf.2, h.buf.3, h.buf.4, h.buf.5⟩, by rw [hacc, hdel]; exact h.del,
        by rw [hacc]; exact h.real, by simp [hasLast_snoc], ?_⟩
      simp [hasLast_snoc, he]
    · rename_i he
      refine ⟨by rw [hacc]; exact ⟨h.buf.1, h.buf.2, h.buf.3, h.buf.4, h.buf.5⟩, by rw [hacc, hdel]; exact h.del,
        by rw [hacc]; exact h.real, by simp [hasLast_snoc], ?_⟩
      simp [hasLast_snoc, hasClose_snoc, he, h.closed]
  | close =>
    have hacc : accepted (es ++ [.close]) = accepted es := by rw [accepted_snoc]; simp [accepted]
    have hdel : delivered (es ++ [.close]) = delivered es := by rw [delivered_snoc]; simp [delivered]
    unfold BQueue.close
    refine ⟨by rw [hacc]; exact ⟨h.buf.1, h.buf.2, h.buf.3, h.buf.4, h.buf.5⟩, by rw [hacc, hdel]; exact h.del,
        by rw [hacc]; exact h.real, ?_, ?_⟩
    · rw [hasLast_snoc]; simp [h.last]
    · rw [hasClose_snoc]; simp

theorem Runs.inv {cap : Nat} {es : List (QEvent α)} {s : S α} (h : Runs cap es s) : Inv cap es s := by
  induction h with
  | nil => exact .init cap
  | snoc _ hs ih => exact ih.step hs

end Verif.BQueue

namespace Verif.UQueue
open QEvent
variable {α : Type}

structure Inv (es : List (QEvent α)) (s : S α) : Prop where
  acc : accepted es = delivered es ++ s.buffer.map some
  size : s.size = s.buffer.length
  last : s.last = true ↔ hasLast es
  closed : s.closed = true ↔ hasClose es ∨ (hasLast es ∧ s.buffer = [])

theorem Inv.init : Inv [] (init : S α) := by
  constructor <;> simp [UQueue.init, accepted, delivered, hasLast, hasClose]

theorem Inv.pending {es : List (QEvent α)} {s : S α} (h : Inv es s) : pending es = s.buffer.map some := by
  simp [QEvent.pending, h.acc]

theorem Inv.step {es : List (QEvent α)} {s s' : S α} {e : QEvent α} (h : Inv es s) (hs : Step s e s') : Inv (es ++ [e]) s' := by
  cases hs with
  | push =>
    rename_i x
    unfold UQueue.push
    split
    · constructor
      · simp [accepted_snoc, delivered_snoc, h.acc]; simp [accepted, delivered]
      · exact h.size
      · simp [BQueue.hasLast_snoc, h.last]
      · simp [BQueue.hasLast_snoc, BQueue.hasClose_snoc, h.closed]
    · rename_i h1
      simp only [Bool.or_eq_true, not_or, Bool.not_eq_true] at h1
      have h3 : ¬ hasLast es := by rw [← h.last, h1.2]; simp
      have h4 : ¬ hasClose es := by
        intro hc
        have := h.closed.mpr (.inl hc)
        simp [h1.1] at this
      constructor
      · simp [accepted_snoc, delivered_snoc, h.acc]; simp [accepted, delivered]
      · simp [h.size]
      · simp [BQueue.hasLast_snoc, h.last]
      · simp [BQueue.hasLast_snoc, BQueue.hasClose_snoc, h1.1, h3, h4]
  | pop hp =>
    unfold UQueue.pop at hp
    split at hp
    · split at hp
      · simp only [Option.some.injEq, Prod.mk.injEq] at hp
        obtain ⟨rfl, rfl⟩ := hp
        constructor
        · simp [accepted_snoc, delivered_snoc, h.acc]; simp [accepted, delivered]
        · exact h.size
        · simp [BQueue.hasLast_snoc, h.last]
        · simp [BQueue.hasLast_snoc, BQueue.hasClose_snoc, h.closed]
      · rename_i h1 h2
        simp only [h2, Bool.false_or, decide_eq_true_eq, h.size] at h1
        simp only [Option.some.injEq, Prod.mk.injEq] at hp
        obtain ⟨rfl, rfl⟩ := hp
        cases hb : s.buffer with
        | nil => simp [hb] at h1
        | cons x l =>
          have hnc : ¬ hasClose es := fun hc => h2 (h.closed.mpr (.inl hc))
          have hcl : s.closed = false := by simpa using h2
          have hacc : accepted (es ++ [.pop (some (some x))]) = delivered (es ++ [.pop (some (some x))]) ++ l.map some := by
            rw [accepted_snoc, delivered_snoc, h.acc, hb]
            simp [accepted, delivered]
          have hsz : s.size - 1 = l.length := by rw [h.size, hb]; simp
          show Inv (es ++ [.pop (some (some x))]) (if (l.isEmpty && s.last) = true then
            ⟨l, s.size - 1, true, s.last⟩ else ⟨l, s.size - 1, s.closed, s.last⟩)
          by_cases h3 : (l.isEmpty && s.last) = true
          · rw [if_pos h3]
            simp only [Bool.and_eq_true, List.isEmpty_iff] at h3
            refine ⟨hacc, hsz, by simp [BQueue.hasLast_snoc, h.last], ?_⟩
            simp [BQueue.hasLast_snoc, h3.1, h.last.mp h3.2]
          · rw [if_neg h3]
            refine ⟨hacc, hsz, by simp [BQueue.hasLast_snoc, h.last], ?_⟩
            simp only [hcl, Bool.false_eq_true, BQueue.hasClose_snoc, BQueue.hasLast_snoc, reduceCtorEq, or_false, hnc, false_or,
              false_iff, not_and]
            intro hl he
            exact h3 (by simp [he, h.last.mpr hl])
    · simp at hp
  | setLast =>
    unfold UQueue.setLast
    simp only
    split
    · rename_i he
      simp only [List.isEmpty_iff] at he
      refine ⟨?_, h.size, by simp [BQueue.hasLast_snoc], by simp [BQueue.hasLast_snoc, he]⟩
      simp [accepted_snoc, delivered_snoc, h.acc]; simp [accepted, delivered]
    · rename_i he
      simp only [List.isEmpty_iff] at he
      refine ⟨?_, h.size, by simp [BQueue.hasLast_snoc], by simp [BQueue.hasLast_snoc, BQueue.hasClose_snoc, he, h.closed]⟩
      simp [accepted_snoc, delivered_snoc, h.acc]; simp [accepted, delivered]
  | close =>
    unfold UQueue.close
    refine ⟨?_, h.size, by simp [BQueue.hasLast_snoc, h.last], by simp [BQueue.hasClose_snoc]⟩
    simp [accepted_snoc, delivered_snoc, h.acc]; simp [accepted, delivered]

theorem Runs.inv {es : List (QEvent α)} {s : S α} (h : Runs es s) : Inv es s := by
  induction h with
  | nil => exact .init
  | snoc _ hs ih => exact ih.step hs

end Verif.UQueue
