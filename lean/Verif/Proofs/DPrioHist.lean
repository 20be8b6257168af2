import Verif.Proofs.DPrioDrift
/-
The errors of the sums of the prioritized selector in all histories of calls.
-/
namespace Verif
namespace DPrio

variable {X η B : Rat} {N : Nat}

theorem Near.two (sc : Scale X η B N) {d : DPrio} {s : Prio} {S : Nat → Rat} (h : Near B d s S) (ht : Prio.Tree s) (hn : s.n ≤ N) (hT : s.sum 0 ≤ X)
    (j : Nat) : S j ≤ 2 * X :=
  sum_bound ht sc hn hT (i₀ := 0) (fun j _ => h.err j) h.gone (Nat.zero_le j)

theorem gap_value {n : Nat} {S V V' : Nat → Rat} {i : Nat} (h : V i = V' i) : gap n S V i = gap n S V' i := by
  unfold gap
  rw [h]

/-- A call keeps the errors small. -/
theorem Near.step (sc : Scale X η B N) {w : PowD} {d : DPrio} {s : Prio} {S : Nat → Rat} (h : Near B d s S) (dpow : d.pow = w) (spow : s.pow = w.exact)
    (hwf : Prio.WF s) (c : DCall)
    (hc : ∀ p, c.priority = some p → p.accepted = true → ∃ q r, p = .fin q ∧ w.power p = .fin r)
    (h1 : 2 * s.sum 0 ≤ X) (hn1 : s.n ≤ N) (hwf' : Prio.WF (s.apply c.exact).1) (h2 : 2 * (s.apply c.exact).1.sum 0 ≤ X)
    (hn2 : (s.apply c.exact).1.n ≤ N) :
    ∃ S', Near B (d.apply c).1 (s.apply c.exact).1 S' ∧ (d.apply c).1.pow = w ∧ (s.apply c.exact).1.pow = w.exact := by
  have hn := h.toSkel.n
  have hX := sc.x_pos
  have hb := sc.b_nonneg
  have hbX := sc.b_le
  have hs0 := hwf.tree.sum_nonneg 0
  have hval : ∀ p : Dbl, p.accepted = true → ∀ q, p = .fin q → 0 ≤ q := by
    rintro p hp q rfl
    simpa [Dbl.accepted] using hp
  have hrej : ∀ p : Dbl, p.accepted = false → Prio.checkPriority p.exact = none := by
    intro p hp
    cases p with
    | fin q =>
      simp only [Dbl.accepted, decide_eq_false_iff_not] at hp
      simp only [Dbl.exact, Prio.checkPriority]
      rw [if_pos (by grind)]
    | pinf => cases hp
    | _ => rfl
  have h2X := h.two sc hwf.tree hn1 (by grind)
  cases c with
  | insert k p =>
    by_cases ha : p.accepted = true
    · obtain ⟨q, v, rfl, hz⟩ := hc p rfl ha
      have hq := hval _ ha q rfl
      have hpw : s.pow.power q = v := by
        rw [spow]
        exact PowD.exact_power hz
      have hcp : Prio.checkPriority (.val q) = some q := by simp [Prio.checkPriority]; grind
      have hg : Near B d.grown (if s.n = s.capacity then { s with capacity := s.capacity * 2 } else s) S := by
        unfold grown
        rw [hn, h.cap]
        split
        · exact ⟨⟨rfl, h.keys, h.index⟩, ⟨h.has.sum, h.has.value⟩, h.nonneg, h.gone, h.err⟩
        · exact h
      have hgp : d.grown.pow = d.pow := by unfold grown; split <;> rfl
      cases hget : s.index.get? k with
      | some i =>
        simp only [DPrio.apply, DPrio.insert, DCall.exact, Dbl.exact, Prio.apply, Prio.insert, validPriority_eq, ha, if_true, hcp, h.index]
        have hi : (if s.n = s.capacity then { s with capacity := s.capacity * 2 } else s : Prio).index = s.index := by split <;> rfl
        have hp : (if s.n = s.capacity then { s with capacity := s.capacity * 2 } else s : Prio).pow = s.pow := by split <;> rfl
        generalize (if s.n = s.capacity then { s with capacity := s.capacity * 2 } else s : Prio) = s' at *
        rw [hi, hget]
        exact ⟨S, hg, hgp.trans dpow, hp.trans spow⟩
      | none =>
        obtain ⟨f, cap, he, _⟩ := Prio.insert_ok hwf hq hget
        have happ : s.apply (DCall.insert k (.fin q)).exact = s.insert k (.val q) := rfl
        rw [happ] at hwf' h2 hn2 ⊢
        have hvz : 0 ≤ v := by rw [← hpw]; exact s.pow.power_nonneg hq
        have hp' : (s.insert k (.val q)).1.pow = s.pow := by rw [he]
        have hsz : (s.index.insert k s.n).size = s.n + 1 := AMap.size_insert_of_none _ hget
        simp only [DPrio.apply, DPrio.insert, validPriority_eq, ha, if_true, h.index, hget]
        have hcapE : d.grown.capacity = (if s.n = s.capacity then { s with capacity := s.capacity * 2 } else s : Prio).capacity := hg.cap
        have hlt : d.n < d.grown.capacity := by
          rw [hcapE, hn]
          have c1 := hwf.cap
          have c2 := hwf.cap_pos
          split
          · show s.n < s.capacity * 2
            omega
          · omega
        rw [if_pos hlt]
        have hins : (s.insert k (.val q)).1 = Prio.setNode { (if s.n = s.capacity then { s with capacity := s.capacity * 2 } else s : Prio) with
            index := s.index.insert k s.n
            keyAt := fun j => if j = s.n then k else s.keyAt j } s.n (s.pow.power q) := by
          have hlt' : s.n < (if s.n = s.capacity then { s with capacity := s.capacity * 2 } else s : Prio).capacity := by
            rw [← hcapE, ← hn]
            exact hlt
          have hi : (if s.n = s.capacity then { s with capacity := s.capacity * 2 } else s : Prio).index = s.index := by split <;> rfl
          have hk : (if s.n = s.capacity then { s with capacity := s.capacity * 2 } else s : Prio).keyAt = s.keyAt := by split <;> rfl
          have hp : (if s.n = s.capacity then { s with capacity := s.capacity * 2 } else s : Prio).pow = s.pow := by split <;> rfl
          simp only [Prio.insert, hcp]
          generalize (if s.n = s.capacity then { s with capacity := s.capacity * 2 } else s : Prio) = s' at *
          rw [hi, hget]
          simp only
          rw [if_pos hlt', hk, hp]
        have hpd : ((({ d.grown with
            index := s.index.insert k d.n
            keyAt := fun j => if j = d.n then k else d.keyAt j } : DPrio).setNode d.n (d.pow.power (.fin q)))).pow = w := by
          rw [(setNode_same _ _ _).1.pow]
          exact hgp.trans dpow
        rw [hins, hpw] at h2 hn2 hp' ⊢
        rw [dpow, hz] at hpd ⊢
        have hs1 : (if s.n = s.capacity then { s with capacity := s.capacity * 2 } else s : Prio).sum = s.sum := by split <;> rfl
        have hs2 : (if s.n = s.capacity then { s with capacity := s.capacity * 2 } else s : Prio).value = s.value := by split <;> rfl
        have hcl : s.n + 1 ≤ (if s.n = s.capacity then { s with capacity := s.capacity * 2 } else s : Prio).capacity := by
          rw [← hcapE, ← hn]
          omega
        generalize (if s.n = s.capacity then { s with capacity := s.capacity * 2 } else s : Prio) = s' at *
        rw [hn] at hpd ⊢
        have hnn : ({ s' with index := s.index.insert k s.n, keyAt := fun j => if j = s.n then k else s.keyAt j } : Prio).n = s.n + 1 := hsz
        have htr : Prio.Tree { s' with index := s.index.insert k s.n, keyAt := fun j => if j = s.n then k else s.keyAt j } :=
          tree_of hwf.tree hs1 hs2 (by rw [hnn]; omega)
        have htt := setNode_total htr (i := s.n) (v := v) (by rw [hnn]; omega) hvz
        have hvn := hwf.tree.value_zero s.n (Nat.le_refl _)
        have hn3 : s.n + 1 ≤ N := by
          have := (Prio.setNode_same { s' with index := s.index.insert k s.n, keyAt := fun j => if j = s.n then k else s.keyAt j } s.n v).index
          have e : (Prio.setNode { s' with index := s.index.insert k s.n, keyAt := fun j => if j = s.n then k else s.keyAt j } s.n v).n =
            (s.index.insert k s.n).size := congrArg AMap.size this
          have : (s.index.insert k s.n).size ≤ N := by
            rw [← e]
            exact hn2
          omega
        obtain ⟨S', r1, _, _⟩ := Near.setNode sc (d := { d.grown with
              index := s.index.insert k s.n
              keyAt := fun j => if j = s.n then k else d.keyAt j })
            (s := { s' with index := s.index.insert k s.n, keyAt := fun j => if j = s.n then k else s.keyAt j }) (S := S) (i := s.n) (v := v)
            ⟨hg.cap, by simp only [h.keys], rfl⟩ ⟨hg.has.sum, hg.has.value⟩ htr (by rw [hnn]; exact hn3) (by rw [hnn]; exact hcl)
            (by rw [hnn]; omega) hvz (by show s'.sum 0 ≤ X; rw [hs1]; grind)
            (by
              rw [← htt]
              have := (show 0 ≤ (Prio.setNode { s' with index := s.index.insert k s.n, keyAt := fun j => if j = s.n then k else s.keyAt j } s.n v).sum 0 from by
                rw [htt]
                show 0 ≤ s'.sum 0 + (v - s'.value s.n)
                rw [hs1, hs2]
                grind)
              grind)
            h.nonneg h2X (fun j hj => h.gone j (by rw [hnn] at hj; omega))
            (by
              intro j hj hjn hjp
              rw [hnn] at hj ⊢
              have hjlt : j < s.n := by omega
              have e : gap (s.n + 1) S s'.value j = gap s.n S s.value j := by
                have k1 : 2 * j + 1 ≠ s.n := by
                  intro hcc
                  exact hjp (by omega) (by omega)
                have k2 : 2 * j + 2 ≠ s.n := by
                  intro hcc
                  exact hjp (by omega) (by omega)
                have e1 : kid (s.n + 1) S (2 * j + 1) = kid s.n S (2 * j + 1) := by
                  unfold kid
                  by_cases hx : 2 * j + 1 < s.n
                  · rw [if_pos hx, if_pos (by omega)]
                  · rw [if_neg hx, if_neg (by omega)]
                have e2 : kid (s.n + 1) S (2 * j + 2) = kid s.n S (2 * j + 2) := by
                  unfold kid
                  by_cases hx : 2 * j + 2 < s.n
                  · rw [if_pos hx, if_pos (by omega)]
                  · rw [if_neg hx, if_neg (by omega)]
                unfold gap
                rw [e1, e2, hs2]
              show Within (gap (s.n + 1) S s'.value j) 0 (2 * B)
              rw [e]
              exact h.err j hjlt)
        exact ⟨S', r1, hpd, hp'.trans spow⟩
    · have ha : p.accepted = false := by simpa using ha
      simp only [DPrio.apply, DPrio.insert, DCall.exact, Prio.apply, Prio.insert, validPriority_eq, ha, hrej p ha]
      exact ⟨S, h, dpow, spow⟩
  | update k p =>
    by_cases ha : p.accepted = true
    · obtain ⟨q, v, rfl, hz⟩ := hc p rfl ha
      have hq := hval _ ha q rfl
      have hpw : s.pow.power q = v := by
        rw [spow]
        exact PowD.exact_power hz
      have hcp : Prio.checkPriority (.val q) = some q := by simp [Prio.checkPriority]; grind
      cases hget : s.index.get? k with
      | none =>
        simp only [DPrio.apply, DPrio.update, DCall.exact, Dbl.exact, Prio.apply, Prio.update, validPriority_eq, ha, if_true, hcp, h.index, hget]
        exact ⟨S, h, dpow, spow⟩
      | some i =>
        have happ : s.apply (DCall.update k (.fin q)).exact = s.update k (.val q) := rfl
        have hup : s.update k (.val q) = (s.setNode i (s.pow.power q), .ok ()) := by simp [Prio.update, hcp, hget]
        rw [happ, hup, hpw] at h2 ⊢
        have hvz : 0 ≤ v := by rw [← hpw]; exact s.pow.power_nonneg hq
        have hi := ((hwf.bij k i).mp hget).1
        have htt := setNode_total hwf.tree hi hvz
        have hpd : (d.setNode i (.fin v)).pow = w := by
          rw [(setNode_same _ _ _).1.pow]
          exact dpow
        have hps : (s.setNode i v).pow = w.exact := by
          obtain ⟨f, hf, _⟩ := Prio.setNode_ok hi hvz hwf.tree
          rw [hf]
          exact spow
        simp only [DPrio.apply, DPrio.update, validPriority_eq, ha, if_true, h.index, hget]
        rw [dpow, hz]
        obtain ⟨S', r1, _, _⟩ := Near.setNode sc h.toSkel h.has hwf.tree hn1 hwf.cap hi hvz (by grind) (by
          rw [← htt]
          have := hwf.tree.value_nonneg i
          have := value_le_total hwf.tree i
          grind) h.nonneg h2X h.gone (fun j hj _ _ => h.err j hj)
        exact ⟨S', r1, hpd, hps⟩
    · have ha : p.accepted = false := by simpa using ha
      simp only [DPrio.apply, DPrio.update, DCall.exact, Prio.apply, Prio.update, validPriority_eq, ha, hrej p ha]
      exact ⟨S, h, dpow, spow⟩
  | delete k =>
    have happ : s.apply (DCall.delete k).exact = s.delete k := rfl
    rw [happ] at hwf' h2 hn2 ⊢
    cases hget : s.index.get? k with
    | none =>
      simp only [DPrio.apply, DPrio.delete, Prio.delete, h.index, hget]
      exact ⟨S, h, dpow, spow⟩
    | some i =>
      obtain ⟨s', he, _, hpow', _, _, _⟩ := Prio.delete_ok hwf hget
      have hi := ((hwf.bij k i).mp hget).1
      have hp' : (s.delete k).1.pow = s.pow := by rw [he]; exact hpow'
      simp only [DPrio.apply, DPrio.delete, h.index, hget]
      have hpd : ((d.replaceByLast i).setNode (d.n - 1) (.fin 0)).pow = w := by
        rw [(setNode_same _ _ _).1.pow]
        unfold replaceByLast
        split
        · show (d.setNode _ _).pow = w
          rw [(setNode_same _ _ _).1.pow]
          exact dpow
        · exact dpow
      -- the intermediate state
      have hlast := value_le_total hwf.tree (s.n - 1)
      have hlast0 := hwf.tree.value_nonneg (s.n - 1)
      have hi0 := hwf.tree.value_nonneg i
      have hit := value_le_total hwf.tree i
      obtain ⟨g, hg, htg⟩ := Prio.setNode_ok (i := i) (v := s.value (s.n - 1)) hi hlast0 hwf.tree
      have hlk : s.index.get? (s.keyAt (s.n - 1)) = some (s.n - 1) := (hwf.bij _ _).mpr ⟨by omega, rfl⟩
      have hmid : ∃ (s1 : Prio) (S1 : Nat → Rat), (s.delete k).1 = { s1.setNode (s.n - 1) 0 with index := s1.index.erase k } ∧
          Near B (d.replaceByLast i) s1 S1 ∧ Prio.Tree s1 ∧ s1.n = s.n ∧ s1.sum 0 ≤ X ∧ s.n ≤ s1.capacity ∧ s1.index.get? k ≠ none := by
        by_cases hil : i = s.n - 1
        · refine ⟨s, S, ?_, ?_, hwf.tree, rfl, by grind, hwf.cap, by rw [hget]; simp⟩
          · simp only [Prio.delete, hget]
            rw [if_neg (by simpa using hil)]
            rw [(Prio.setNode_same s (s.n - 1) 0).index]
          · unfold replaceByLast
            rw [hn, if_neg (by simpa using hil)]
            exact h
        · obtain ⟨S1, htw, _, _⟩ : ∃ S', Near B (d.setNode i (d.value (s.n - 1))) (s.setNode i (s.value (s.n - 1))) S' ∧ _ ∧ _ := by
            rw [h.has.value]
            exact Near.setNode sc h.toSkel h.has hwf.tree hn1 hwf.cap hi hlast0 (by grind) (by grind) h.nonneg h2X h.gone
              (fun j hj _ _ => h.err j hj)
          have hsame := Prio.setNode_same s i (s.value (s.n - 1))
          have hsz1 : (s.index.insert (s.keyAt (s.n - 1)) i).size = s.n := AMap.size_insert_of_some _ hlk
          have hnS : (s.setNode i (s.value (s.n - 1))).n = s.n := congrArg AMap.size hsame.index
          refine ⟨{ s.setNode i (s.value (s.n - 1)) with
            keyAt := fun j => if j = i then s.keyAt (s.n - 1) else s.keyAt j
            index := s.index.insert (s.keyAt (s.n - 1)) i }, S1, ?_, ?_, ?_, ?_, ?_, ?_, ?_⟩
          · simp only [Prio.delete, hget]
            rw [if_pos hil]
            simp only [hsame.keys, hsame.index]
            rw [(Prio.setNode_same _ (s.n - 1) 0).index]
          · have hn' : ({ s.setNode i (s.value (s.n - 1)) with
                keyAt := fun j => if j = i then s.keyAt (s.n - 1) else s.keyAt j
                index := s.index.insert (s.keyAt (s.n - 1)) i } : Prio).n = (s.setNode i (s.value (s.n - 1))).n := hsz1.trans hnS.symm
            unfold replaceByLast
            rw [hn, if_pos hil]
            refine ⟨⟨htw.cap, by simp only [h.keys], by simp only [h.keys, h.index]⟩, ⟨htw.has.sum, htw.has.value⟩, htw.nonneg, ?_, ?_⟩
            · rw [hn']; exact htw.gone
            · rw [hn']; exact htw.err
          · refine tree_of (s := s.setNode i (s.value (s.n - 1))) (by rw [hg]; exact htg) rfl rfl ?_
            rw [hnS]
            show s.n ≤ (s.index.insert (s.keyAt (s.n - 1)) i).size
            omega
          · exact hsz1
          · show (s.setNode i (s.value (s.n - 1))).sum 0 ≤ _
            have := setNode_total hwf.tree hi hlast0
            grind
          · show s.n ≤ (s.setNode i (s.value (s.n - 1))).capacity
            rw [hg]
            exact hwf.cap
          · show (s.index.insert (s.keyAt (s.n - 1)) i).get? k ≠ none
            rw [AMap.get?_insert]
            split
            · simp
            · rw [hget]; simp
      obtain ⟨s1, S1, m1, m2, m3, m4, m5, m6, m7⟩ := hmid
      rw [m1] at hp' ⊢
      rw [hn] at hpd ⊢
      have m8 := m3.value_nonneg (s.n - 1)
      have m9 := value_le_total m3 (s.n - 1)
      obtain ⟨S2, r1, r2, r3⟩ := Near.setNode sc m2.toSkel m2.has m3 (by omega) (by omega) (i := s.n - 1) (v := 0) (by omega) Rat.le_refl m5 (by grind)
        m2.nonneg (m2.two sc m3 (by omega) m5) m2.gone (fun j hj _ _ => m2.err j hj)
      rw [m4] at r2 r3
      obtain ⟨f2, hf2, htf2⟩ := Prio.setNode_ok (i := s.n - 1) (v := 0) (by omega) Rat.le_refl m3
      have hn4 : (s1.setNode (s.n - 1) 0).n = s.n := by rw [hf2]; exact m4
      have hvl : (s1.setNode (s.n - 1) 0).value (s.n - 1) = 0 := by rw [hf2]; simp
      have hsz2 : ({ s1.setNode (s.n - 1) 0 with index := s1.index.erase k } : Prio).n = s.n - 1 := by
        show (s1.index.erase k).size = s.n - 1
        cases hg1 : s1.index.get? k with
        | none => exact absurd hg1 m7
        | some j =>
          have : (s1.index.erase k).size + 1 = s1.index.size := AMap.size_erase_of_some hg1
          have : s1.index.size = s.n := m4
          omega
      have hlastS : S2 (s.n - 1) ≤ B := by
        obtain ⟨q1, _⟩ := r2
        unfold gap kid at q1
        rw [if_neg (by omega), if_neg (by omega), hvl] at q1
        grind
      refine ⟨S2, ⟨⟨r1.cap, r1.keys, by simp only [m2.index]⟩, ⟨r1.has.sum, r1.has.value⟩, r1.nonneg, ?_, ?_⟩, hpd, hp'.trans spow⟩
      · rw [hsz2]
        intro j hj
        by_cases hjl : j = s.n - 1
        · rw [hjl]; exact hlastS
        · exact r1.gone j (by rw [hn4]; omega)
      · rw [hsz2]
        intro j hj
        show Within (gap (s.n - 1) S2 (s1.setNode (s.n - 1) 0).value j) 0 (2 * B)
        have herr := r1.err j (by rw [hn4]; omega)
        rw [hn4] at herr
        have k0 := r1.nonneg (s.n - 1)
        have hkid : ∀ x, x ≠ s.n - 1 → kid (s.n - 1) S2 x = kid s.n S2 x := by
          intro x hx
          unfold kid
          by_cases hxx : x < s.n - 1
          · rw [if_pos hxx, if_pos (by omega)]
          · rw [if_neg hxx, if_neg (by omega)]
        have hkl : kid (s.n - 1) S2 (s.n - 1) = 0 := by
          unfold kid
          rw [if_neg (by omega)]
        have hkl' : kid s.n S2 (s.n - 1) = S2 (s.n - 1) := by
          unfold kid
          rw [if_pos (by omega)]
        by_cases hpar : 2 * j + 1 = s.n - 1 ∨ 2 * j + 2 = s.n - 1
        · have hjp : (s.n - 1 - 1) / 2 = j := by omega
          obtain ⟨q1, q2⟩ := r3 (by omega)
          rw [hjp] at q1 q2
          unfold gap at q1 q2 ⊢
          rcases hpar with hp | hp
          · rw [hkid (2 * j + 2) (by omega), hp, hkl]
            rw [hp, hkl'] at q1 q2
            generalize kid s.n S2 (2 * j + 2) = R at *
            generalize (s1.setNode (s.n - 1) 0).value j = vj at *
            constructor <;> grind
          · rw [hkid (2 * j + 1) (by omega), hp, hkl]
            rw [hp, hkl'] at q1 q2
            generalize kid s.n S2 (2 * j + 1) = R at *
            generalize (s1.setNode (s.n - 1) 0).value j = vj at *
            constructor <;> grind
        · unfold gap at herr ⊢
          rw [hkid _ (fun hc => hpar (Or.inl hc)), hkid _ (fun hc => hpar (Or.inr hc))]
          exact herr
  | clear =>
    refine ⟨fun j => if j < s.n then 0 else S j, ⟨⟨h.cap, h.keys, rfl⟩, ⟨fun j => ?_, fun j => ?_⟩, fun j => ?_, fun j _ => ?_, fun j hj => ?_⟩, dpow, spow⟩
    · simp only [DPrio.apply, DPrio.clear, hn]
      split
      · rfl
      · exact h.has.sum j
    · simp only [DPrio.apply, DPrio.clear, DCall.exact, Prio.apply, Prio.clear, hn]
      split
      · rfl
      · exact h.has.value j
    · split
      · exact Rat.le_refl
      · exact h.nonneg j
    · split
      · exact hb
      · exact h.gone j (by omega)
    · have : (s.clear).n = 0 := rfl
      have hj' : j < (s.clear).n := hj
      omega

end DPrio
end Verif
