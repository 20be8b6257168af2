import Verif.Spec.ClientOps
/-
The loop of the kernel that updates priorities.
-/
namespace Verif

namespace Service

theorem run_append (w : Wire) : ∀ (as bs : List Event) (v : Service), v.run w (as ++ bs) = (v.run w as).bind fun v1 => v1.run w bs := by
  intro as
  induction as with
  | nil => intro bs v; rfl
  | cons a as ih =>
    intro bs v
    show (match v.step w a with | none => none | some v' => v'.run w (as ++ bs)) = _
    simp only [Service.run]
    cases v.step w a with
    | none => rfl
    | some v' => exact ih bs v'

/-- The attempts are steps of the server, and OK is what the server has answered to the last one. -/
theorem rounds_run {w : Wire} {n : String} {us : List (Key × Pri)} : ∀ {rounds : List (List Event × Try)} {v v' : Service} {r : Ret (Option Code)},
    updateRounds w n us rounds v = some (v', r) → ∃ done, done <+: rounds ∧ v.run w (roundEvents n us done) = some v' ∧
      (r = .ret none → ∃ before pre v1, done = before ++ [(pre, .answered)] ∧ v.run w (roundEvents n us before ++ pre) = some v1 ∧
        v1.dead = false ∧ v1.unary (.mutate n us []) = (v', none)) := by
  intro rounds
  induction rounds with
  | nil =>
    intro v v' r h
    cases h
    exact ⟨[], List.prefix_refl _, rfl, fun e => by cases e⟩
  | cons x rounds ih =>
    intro v v' r h
    obtain ⟨pre, a⟩ := x
    simp only [updateRounds] at h
    cases hp : v.run w pre with
    | none => rw [hp] at h; cases h
    | some v1 =>
      rw [hp] at h
      have hlater : ∀ {v2}, (a.reaches = true → v1.step w (.unary (.mutate n us [])) = some v2) → (a.reaches = false → v2 = v1) →
          updateRounds w n us rounds v2 = some (v', r) → ∃ done, done <+: (pre, a) :: rounds ∧ v.run w (roundEvents n us done) = some v' ∧
          (r = .ret none → ∃ before pre v1, done = before ++ [(pre, .answered)] ∧ v.run w (roundEvents n us before ++ pre) = some v1 ∧
            v1.dead = false ∧ v1.unary (.mutate n us []) = (v', none)) := by
        intro v2 h1 h2 h3
        obtain ⟨done, g1, g2, g3⟩ := ih h3
        have hone : v.run w (pre ++ (if a.reaches then [.unary (.mutate n us [])] else [])) = some v2 := by
          rw [run_append, hp]
          cases ha : a.reaches with
          | true => simp only [if_true, Option.bind_some, Service.run, h1 ha]
          | false => rw [h2 ha]; rfl
        refine ⟨(pre, a) :: done, (List.cons_prefix_cons).mpr ⟨rfl, g1⟩, ?_, fun e => ?_⟩
        · simp only [roundEvents]
          rw [run_append, hone]; exact g2
        · obtain ⟨before, pre', v3, k1, k2, k3⟩ := g3 e
          refine ⟨(pre, a) :: before, pre', v3, by rw [k1]; rfl, ?_, k3⟩
          simp only [roundEvents]
          rw [List.append_assoc, run_append, hone]; exact k2
      cases a with
      | lost c =>
        simp only at h
        split at h
        · exact hlater (v2 := v1) (fun e => by cases e) (fun _ => rfl) h
        · cases h
          exact ⟨[(pre, .lost c)], (List.cons_prefix_cons).mpr ⟨rfl, List.nil_prefix⟩, by simp [roundEvents, Try.reaches, hp], fun e => by cases e⟩
      | unanswered c =>
        simp only at h
        cases hs : v1.step w (.unary (.mutate n us [])) with
        | none => rw [hs] at h; cases h
        | some v2 =>
          rw [hs] at h
          simp only at h
          split at h
          · exact hlater (v2 := v2) (fun _ => hs) (fun e => by cases e) h
          · cases h
            refine ⟨[(pre, .unanswered c)], (List.cons_prefix_cons).mpr ⟨rfl, List.nil_prefix⟩, ?_, fun e => by cases e⟩
            simp only [roundEvents, Try.reaches, if_true, List.append_nil]
            rw [run_append, hp]
            simp only [Option.bind_some, Service.run, hs]
      | answered =>
        simp only at h
        cases hs : v1.step w (.unary (.mutate n us [])) with
        | none => rw [hs] at h; cases h
        | some v2 =>
          rw [hs] at h
          simp only at h
          split at h
          · cases h
          split at h
          · exact hlater (v2 := v2) (fun _ => hs) (fun e => by cases e) h
          · have hd : v1.dead = false ∧ (v1.unary (.mutate n us [])).1 = v2 := by
              simp only [Service.step] at hs
              split at hs
              · cases hs
              · rename_i hd
                cases hs
                exact ⟨by simpa using hd, rfl⟩
            cases h
            refine ⟨[(pre, .answered)], (List.cons_prefix_cons).mpr ⟨rfl, List.nil_prefix⟩, ?_, fun e => ?_⟩
            · simp only [roundEvents, Try.reaches, if_true, List.append_nil]
              rw [run_append, hp]
              simp only [Option.bind_some, Service.run, hs]
            · refine ⟨[], pre, v1, rfl, by simpa [roundEvents] using hp, hd.1, ?_⟩
              rw [← hd.2, ← Ret.ret.inj e]

/-- The calls with which the op gets to the loop. -/
theorem updateOp_ok {w : Wire} {n : String} {keys : Vec Key} {ps : Vec Pri} {rounds : List (List Event × Try)} {v v' : Service}
    (h : updateOp w n keys ps rounds v = some (v', .ret none)) : updateRounds w n (keys.values.zip ps.values) rounds v = some (v', .ret none) := by
  unfold updateOp at h
  split at h
  · cases h
  · split at h
    · cases h
    · exact h

/-- The op ends with an error for which it does not try again. -/
theorem rounds_err {w : Wire} {n : String} {us : List (Key × Pri)} {c : Code} : ∀ {rounds : List (List Event × Try)} {v v' : Service},
    updateRounds w n us rounds v = some (v', .ret (some c)) → c ≠ .unavailable ∧ c ≠ .deadlineExceeded := by
  intro rounds
  have key : ∀ {s : Option Code}, retries s = false → s = some c → c ≠ .unavailable ∧ c ≠ .deadlineExceeded := by
    intro s h1 h2
    subst h2
    simp only [retries, decide_eq_false_iff_not, not_or, Option.some.injEq] at h1
    exact h1
  induction rounds with
  | nil => intro v v' h; cases h
  | cons x rounds ih =>
    intro v v' h
    obtain ⟨pre, a⟩ := x
    simp only [updateRounds] at h
    split at h
    · cases h
    · split at h
      · split at h
        · exact ih h
        · rename_i hn; cases h; exact key (by simpa using hn) rfl
      · split at h
        · cases h
        · split at h
          · exact ih h
          · rename_i hn; cases h; exact key (by simpa using hn) rfl
      · split at h
        · cases h
        · split at h
          · cases h
          split at h
          · exact ih h
          · rename_i hn
            have := congrArg Prod.snd (Option.some.inj h)
            exact key (by simpa using hn) (Ret.ret.inj this)

theorem roundEvents_append (n : String) (us : List (Key × Pri)) : ∀ (a b : List (List Event × Try)),
    roundEvents n us (a ++ b) = roundEvents n us a ++ roundEvents n us b := by
  intro a b
  induction a with
  | nil => rfl
  | cons x a ih =>
    obtain ⟨pre, t⟩ := x
    simp only [List.cons_append, roundEvents, ih, List.append_assoc]

end Service
end Verif
