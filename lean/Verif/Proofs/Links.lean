import Verif.Spec.EndToEnd
import Verif.Proofs.SampleSync
/-
Invariant of a sampler that is connected to a server.
-/
namespace Verif
namespace ClientSampler

theorem setAt_self {α : Type} (f : Nat → α) (i : Nat) (a : α) : setAt f i a i = a := by simp [setAt]

theorem setAt_ne {α : Type} (f : Nat → α) {i j : Nat} (a : α) (h : j ≠ i) : setAt f i a j = f j := by simp [setAt, h]

theorem Linked.reach {c : SamplerCfg} {now : Int} {wr : Nat → List Entry} {evs : List Event} {v : ClientSampler} {L : Links}
    {P : ClientSampler → Event → Prop} (h : Linked c now wr evs v L) (hP : ∀ v, ∀ e ∈ evs, P v e) : Reach c now P evs v := by
  induction h with
  | init => exact .init
  | opens _ _ _ hs ih => exact .step (e := .work _) (ih fun v e he => hP v e (List.mem_append_left _ he)) (hP _ _ (by simp)) hs
  | reads _ _ _ hs ih => exact .step (e := .response _ _) (ih fun v e he => hP v e (List.mem_append_left _ he)) (hP _ _ (by simp)) hs
  | pushes _ _ hs _ ih => exact .step (e := .work _) (ih fun v e he => hP v e (List.mem_append_left _ he)) (hP _ _ (by simp)) hs
  | other _ _ _ hs _ ih => exact .step (ih fun v e he => hP v e (List.mem_append_left _ he)) (hP _ _ (by simp)) hs

theorem collectAll_snoc (es : List Entry) (e : Entry) : collectAll (es ++ [e]) = collect (collectAll es) e := by
  simp [collectAll]

/-- What a phase of a worker says about its stream. -/
def WOk (L : Links) (i : Nat) : SWPhase → Prop
  | .fetch _ _ .asking => ∃ q, L.conn i = some q ∧ (collectAll (L.read q)).1 = [] ∧ clientSamples (L.read q) = (L.came q).map .ok
  | .fetch _ _ (.reading _ _ parts) =>
      ∃ q, L.conn i = some q ∧ (collectAll (L.read q)).1 = parts ∧ clientSamples (L.read q) = (L.came q).map .ok
  | .fetch _ _ (.pushing _ _ s rest) =>
      ∃ q front, L.conn i = some q ∧ L.read q = front ++ rest ∧ (collectAll front).1 = [] ∧ clientSamples front = (L.came q).map .ok ++ [.ok s]
  | .fetch _ _ (.checking _ _) => False
  | .fetch _ _ (.sampling _ _ _ _) => False
  | .fetch _ _ (.pushingHere _ _ _ _) => False
  | _ => True

/-- The stream of another worker does not matter. -/
theorem WOk.congr {L L' : Links} {i : Nat} {p : SWPhase} (h : WOk L i p) (h1 : L'.conn i = L.conn i)
    (h2 : ∀ q, L.conn i = some q → L'.read q = L.read q ∧ L'.came q = L.came q) : WOk L' i p := by
  cases p with
  | fetch n got f =>
    cases f with
    | asking =>
      obtain ⟨q, a, b, d⟩ := h
      obtain ⟨e1, e2⟩ := h2 q a
      exact ⟨q, h1.trans a, e1 ▸ b, by rw [e1, e2]; exact d⟩
    | reading =>
      obtain ⟨q, a, b, d⟩ := h
      obtain ⟨e1, e2⟩ := h2 q a
      exact ⟨q, h1.trans a, e1 ▸ b, by rw [e1, e2]; exact d⟩
    | pushing =>
      obtain ⟨q, fr, a, b, d, g⟩ := h
      obtain ⟨e1, e2⟩ := h2 q a
      exact ⟨q, fr, h1.trans a, e1 ▸ b, d, e2 ▸ g⟩
    | _ => exact h
  | _ => trivial

/-- The invariant. -/
structure LInv (wr : Nat → List Entry) (v : ClientSampler) (L : Links) : Prop where
  worker : v.dead = false → ∀ i w, v.workers[i]? = some w → WOk L i w.phase
  pre : ∀ q, (L.came q).map .ok <+: clientSamples (L.read q)
  written : ∀ q, L.read q <+: wr q
  fresh : ∀ q, q ∉ L.opened → L.read q = [] ∧ L.came q = []
  conn : ∀ i q, L.conn i = some q → q ∈ L.opened
  inj : ∀ i j q, L.conn i = some q → L.conn j = some q → i = j
  nodup : L.opened.Nodup
  perm : v.arrived.Perm (L.opened.flatMap L.came)

theorem setPhase_cases (v : ClientSampler) (i j : Nat) (p : SWPhase) {w : SWorker} (h : (v.setPhase i p).workers[j]? = some w) :
    (j = i ∧ w.phase = p) ∨ (j ≠ i ∧ v.workers[j]? = some w) := by
  simp only [setPhase, List.getElem?_modify] at h
  cases hv : v.workers[j]? with
  | none => simp [hv] at h
  | some w0 =>
    rw [hv] at h
    simp only [Option.map_eq_map, Option.map_some, Option.some.injEq] at h
    by_cases hj : j = i
    · rw [if_pos hj.symm] at h
      subst h
      exact .inl ⟨hj, rfl⟩
    · rw [if_neg (Ne.symm hj)] at h
      subst h
      exact .inr ⟨hj, rfl⟩

/-- What `entries` does: the phase of the worker fits, or the process has died. -/
theorem entries_ok {L : Links} {i q : Nat} (hq : L.conn i = some q) (v : ClientSampler) (n got want sampled : Int) :
    ∀ (es : List Entry) (parts front : List Entry), L.read q = front ++ es → (collectAll front).1 = parts →
    clientSamples front = (L.came q).map .ok →
    (entries v i n got want sampled parts es).dead = true ∨
      ∃ p v1, entries v i n got want sampled parts es = setPhase v1 i p ∧ v1.workers = v.workers ∧ v1.dead = v.dead ∧ WOk L i p
  | [], parts, front, h1, h2, h3 => by
    rw [List.append_nil] at h1
    unfold entries
    split
    · exact .inr ⟨_, v, rfl, rfl, rfl, q, hq, h1 ▸ h2, h1 ▸ h3⟩
    · split
      · exact .inr ⟨_, v, rfl, rfl, rfl, trivial⟩
      · rename_i hp
        exact .inr ⟨_, v, rfl, rfl, rfl, q, hq, by rw [h1, h2]; exact Classical.not_not.mp hp, h1 ▸ h3⟩
  | e :: es, parts, front, h1, h2, h3 => by
    unfold entries
    split
    · rename_i hl
      split
      · exact .inl rfl
      · exact .inr ⟨_, _, rfl, rfl, rfl, trivial⟩
      · rename_i s hs
        refine .inr ⟨_, v, rfl, rfl, rfl, q, front ++ [e], hq, by simp [h1], ?_, ?_⟩
        · rw [collectAll_snoc, collect, if_pos hl]
        · unfold clientSamples at h3 ⊢
          rw [collectAll_snoc, collect, if_pos hl]
          simp only [List.map_append, List.map_cons, List.map_nil]
          rw [h3, h2, hs]
    · rename_i hl
      refine entries_ok hq v n got want sampled es (parts ++ [e]) (front ++ [e]) (by simp [h1]) ?_ ?_
      · rw [collectAll_snoc, collect, if_neg hl, h2]
      · unfold clientSamples at h3 ⊢
        rw [collectAll_snoc, collect, if_neg hl]
        exact h3

/-- Steps that do not concern a stream: every worker keeps its phase or goes into one that asks nothing. -/
theorem LInv.phases {wr : Nat → List Entry} {v v' : ClientSampler} {L : Links} (h : LInv wr v L) (hp : v'.pushed = v.pushed)
    (hd : v'.dead = false → v.dead = false)
    (hw : v'.dead = false → ∀ j w, v'.workers[j]? = some w → WOk L j w.phase ∨ ∃ w0, v.workers[j]? = some w0 ∧ w.phase = w0.phase) : LInv wr v' L := by
  refine ⟨fun hd' j w hj => ?_, h.pre, h.written, h.fresh, h.conn, h.inj, h.nodup, by unfold arrived at *; rw [hp]; exact h.perm⟩
  rcases hw hd' j w hj with g | ⟨w0, g1, g2⟩
  · exact g
  · rw [g2]; exact h.worker (hd hd') j w0 g1

theorem LInv.one {wr : Nat → List Entry} {v v1 : ClientSampler} {L : Links} (h : LInv wr v L) {i : Nat} {p : SWPhase} (hp : v1.pushed = v.pushed)
    (hd : v1.dead = v.dead) (hw : v1.workers = v.workers) (hk : WOk L i p) : LInv wr (setPhase v1 i p) L := by
  refine h.phases hp (fun g => hd ▸ g) fun _ j w hj => ?_
  rcases setPhase_cases v1 i j p hj with ⟨rfl, e⟩ | ⟨_, e⟩
  · exact .inl (e ▸ hk)
  · exact .inr ⟨w, hw ▸ e, rfl⟩

theorem LInv.same {wr : Nat → List Entry} {v v1 : ClientSampler} {L : Links} (h : LInv wr v L) (hp : v1.pushed = v.pushed)
    (hd : v1.dead = false → v.dead = false) (hw : v1.workers = v.workers) : LInv wr v1 L :=
  h.phases hp hd fun _ _ w hj => .inr ⟨w, hw ▸ hj, rfl⟩

theorem finishSample_workers (c : SamplerCfg) (v : ClientSampler) (x : Nat) (k : SampleCall) (s : Sample) :
    (v.finishSample c x k s).workers = v.workers ∧ ((v.finishSample c x k s).dead = false → v.dead = false) := by
  have hf : (v.finished c).workers = v.workers ∧ (v.finished c).dead = v.dead := by
    unfold finished; simp only; split <;> exact ⟨rfl, rfl⟩
  unfold finishSample
  split
  · exact ⟨rfl, id⟩
  · split
    · exact ⟨rfl, fun h => by cases h⟩
    · exact ⟨rfl, id⟩
    · split
      · exact ⟨rfl, id⟩
      · exact ⟨hf.1, fun h => hf.2 ▸ h⟩
  · split
    · exact ⟨rfl, fun h => by cases h⟩
    · exact ⟨rfl, id⟩
    · split
      · exact ⟨rfl, id⟩
      · exact ⟨hf.1, fun h => hf.2 ▸ h⟩

theorem finishTimestep_workers (c : SamplerCfg) (v : ClientSampler) (x : Nat) (s : Sample) :
    (v.finishTimestep c x s).workers = v.workers ∧ ((v.finishTimestep c x s).dead = false → v.dead = false) := by
  have hf : ∀ v : ClientSampler, (v.finished c).workers = v.workers ∧ (v.finished c).dead = v.dead := by
    intro v
    unfold finished; simp only; split <;> exact ⟨rfl, rfl⟩
  unfold finishTimestep
  split
  · exact ⟨rfl, fun h => by cases h⟩
  · exact ⟨rfl, id⟩
  · rename_i rows last s' _
    simp only
    split
    · exact ⟨rfl, id⟩
    · split
      · exact ⟨(hf _).1, fun h => by rw [← (hf { v with active := some s' }).2]; exact h⟩
      · exact ⟨rfl, id⟩

theorem dead_of {c : SamplerCfg} {v v' : ClientSampler} {e : Event} (hs : step c v e = some v') : v.dead = false := by
  unfold step at hs
  split at hs
  · cases hs
  · rename_i h; simpa using h

theorem LInv.other {c : SamplerCfg} {t : String} {a b : Int} (hc : c.source = .grpc t a b) {wr : Nat → List Entry} {v v' : ClientSampler} {L : Links}
    {e : Event} (h : LInv wr v L) (h1 : ∀ i es, e ≠ .response i es)
    (h2 : ∀ i n got, e = .work i → v.workers[i]? ≠ some ⟨false, .fetch n got .opening⟩) (hs : step c v e = some v') (h3 : v'.pushed = v.pushed) :
    LInv wr v' L := by
  have hd := dead_of hs
  unfold ClientSampler.step at hs
  rw [if_neg (by simp [hd])] at hs
  cases e with
  | tick d => cases hs; exact h.same rfl id rfl
  | call x k =>
    simp only [ClientSampler.call] at hs
    split at hs
    · cases hs
    · cases hs; exact h.same rfl id rfl
  | pop x =>
    simp only [ClientSampler.pop] at hs
    split at hs
    · split at hs
      · cases hs; exact h.same rfl id rfl
      · split at hs
        · cases hs
        · split at hs <;> (cases hs; exact h.same rfl id rfl)
    · cases hs
  | finish x =>
    simp only [ClientSampler.finish] at hs
    split at hs
    · split at hs <;> (cases hs; exact h.same rfl (fun _ => hd) rfl)
    · cases hs
      exact h.same h3 (finishSample_workers ..).2 (finishSample_workers ..).1
    · split at hs
      · cases hs; exact h.same rfl (fun _ => hd) rfl
      · cases hs
        exact h.same h3 (finishTimestep_workers ..).2 (finishTimestep_workers ..).1
    · cases hs
  | close =>
    simp only [ClientSampler.close] at hs
    split at hs <;> (cases hs; exact h.same rfl id rfl)
  | closeStep =>
    simp only [ClientSampler.closeStep] at hs
    split at hs
    · cases hs
    · split at hs
      · cases hs
        refine h.phases rfl id fun _ j w hj => .inr ?_
        simp only [List.getElem?_modify] at hj
        cases hw : v.workers[j]? with
        | none => simp [hw] at hj
        | some w0 =>
          rw [hw] at hj
          simp only [Option.map_eq_map, Option.map_some, Option.some.injEq] at hj
          refine ⟨w0, rfl, ?_⟩
          subst hj
          split <;> rfl
      · cases hs; exact h.same rfl id rfl
    · split at hs
      · cases hs; exact h.same rfl id rfl
      · cases hs
    · cases hs
  | work i =>
    simp only [ClientSampler.work] at hs
    split at hs
    · cases hs
    · rename_i w hw
      have hk := h.worker hd i w hw
      split at hs
      · simp only [ClientSampler.take, hc] at hs
        split at hs
        · cases hs; exact h.one rfl rfl rfl trivial
        · split at hs
          · cases hs; exact h.one rfl rfl rfl trivial
          · cases hs
      · cases hs
        unfold reported
        simp only
        split
        · exact h.one rfl rfl rfl trivial
        · exact h.one rfl rfl rfl trivial
      · cases hs
      · rename_i n got f hph
        rw [hph] at hk
        split at hs
        · split at hs
          · cases hs; exact h.one rfl rfl rfl trivial
          · rename_i hcl
            exfalso
            obtain ⟨cl, ph⟩ := w
            simp only at hph hcl
            have : cl = false := by simpa using hcl
            subst this hph
            exact h2 i n got rfl hw
        · split at hs
          · cases hs
          · cases hs; exact h.one rfl rfl rfl trivial
        · cases hs
        · rename_i want sampled s rest
          simp only [push] at hs
          split at hs
          · cases hs
          · rename_i v1 hpu
            split at hpu
            · cases hpu
            · split at hpu
              · cases hpu
                cases hs
                rw [(entries_quiet _ _ _ _ _ _ _ _).pushed] at h3
                simp at h3
              · cases hpu
          · rename_i v1 hpu
            split at hpu
            · cases hpu
              cases hs
              exact h.one rfl rfl rfl trivial
            · split at hpu <;> cases hpu
        · exact hk.elim
        · cases hs
        · exact hk.elim
  | write i r =>
    simp only [ClientSampler.write, hc] at hs
    split at hs
    · rename_i cl n got hw
      have hk := h.worker hd i _ hw
      split at hs
      · split at hs
        · cases hs
          exact h.one rfl rfl rfl hk
        · cases hs; exact h.one rfl rfl rfl trivial
      · cases hs
    · cases hs
  | response i es => exact absurd rfl (h1 i es)
  | streamEnd i st l =>
    simp only [ClientSampler.streamEnd] at hs
    split at hs
    · cases hs; exact h.one rfl rfl rfl trivial
    · cases hs
  | answer i r =>
    simp only [ClientSampler.answer] at hs
    split at hs
    · rename_i hw
      exact (h.worker hd i _ hw).elim
    · cases hs

/-- A change of one stream. -/
theorem flatMap_set {α : Type} (f : Nat → List α) (q : Nat) (a : α) : ∀ {l : List Nat}, l.Nodup → q ∈ l →
    (l.flatMap f ++ [a]).Perm (l.flatMap (setAt f q (f q ++ [a])))
  | [], _, h => by simp at h
  | x :: l, hn, h => by
    rw [List.nodup_cons] at hn
    rw [List.flatMap_cons, List.flatMap_cons]
    by_cases hx : x = q
    · subst hx
      have : l.flatMap (setAt f x (f x ++ [a])) = l.flatMap f := by
        simp only [List.flatMap_def]
        congr 1
        exact List.map_congr_left fun y hy => setAt_ne _ _ fun e => hn.1 (e ▸ hy)
      rw [setAt_self, this, List.append_assoc, List.append_assoc]
      exact List.perm_append_comm.append_left _
    · have hq : q ∈ l := by
        rcases List.mem_cons.mp h with rfl | h
        · exact absurd rfl hx
        · exact h
      rw [setAt_ne _ _ hx, List.append_assoc]
      exact (flatMap_set f q a hn.2 hq).append_left _

theorem linv {c : SamplerCfg} {t : String} {a b : Int} (hc : c.source = .grpc t a b) {now : Int} {wr : Nat → List Entry} {evs : List Event}
    {v : ClientSampler} {L : Links} (h : Linked c now wr evs v L) : LInv wr v L := by
  induction h with
  | init =>
    refine ⟨fun _ i w hw => ?_, fun q => List.prefix_rfl, fun q => List.nil_prefix, fun q _ => ⟨rfl, rfl⟩, fun i q g => (by cases g),
      fun i j q g => (by cases g), List.nodup_nil, List.Perm.refl _⟩
    simp only [ClientSampler.init, List.getElem?_replicate] at hw
    split at hw
    · cases hw; trivial
    · cases hw
  | @opens evs v v' L i q n got _ hw hq hs ih =>
    have hd := dead_of hs
    obtain ⟨hr, hcm⟩ := ih.fresh q hq
    unfold ClientSampler.step at hs
    rw [if_neg (by simp [hd])] at hs
    simp only [ClientSampler.work, hw, Bool.false_eq_true, if_false] at hs
    cases hs
    refine ⟨fun _ j w hj => ?_, ih.pre, ih.written, fun q' hq' => ih.fresh q' fun g => hq' (List.mem_append_left _ g), fun j q' g => ?_, fun j k q' g g' => ?_, ?_, ?_⟩
    · rcases setPhase_cases _ _ _ _ hj with ⟨rfl, e⟩ | ⟨hne, e⟩
      · rw [e]
        exact ⟨q, setAt_self .., by simp only [hr]; rfl, by simp only [hr, hcm]; rfl⟩
      · refine (ih.worker hd j w e).congr (setAt_ne _ _ hne) fun _ _ => ⟨rfl, rfl⟩
    · simp only [setAt] at g
      split at g
      · cases g; simp
      · exact List.mem_append_left _ (ih.conn j q' g)
    · simp only [setAt] at g g'
      split at g <;> split at g'
      · subst_vars; rfl
      · cases g; exact absurd (ih.conn _ _ g') hq
      · cases g'; exact absurd (ih.conn _ _ g) hq
      · exact ih.inj j k q' g g'
    · exact List.nodup_append.mpr ⟨ih.nodup, by simp, fun x hx y hy e => by simp at hy; subst hy e; exact hq hx⟩
    · simp only [List.flatMap_append, List.flatMap_cons, List.flatMap_nil, hcm, List.append_nil]
      exact ih.perm
  | @reads evs v v' L i q es _ hq hwr hs ih =>
    have hd := dead_of hs
    unfold ClientSampler.step at hs
    rw [if_neg (by simp [hd])] at hs
    simp only [ClientSampler.response] at hs
    split at hs
    · rename_i cl n got want sampled parts hw
      obtain ⟨q', e1, e2, e3⟩ := ih.worker hd i _ hw
      rw [hq] at e1; cases e1
      cases hs
      have hent := entries_ok (L := { L with read := setAt L.read q (L.read q ++ es) }) (i := i) (q := q) hq v n got want sampled es parts (L.read q)
        (by simp [setAt_self]) e2 e3
      have hpu : (entries v i n got want sampled parts es).pushed = v.pushed := (entries_quiet _ _ _ _ _ _ _ _).pushed
      refine ⟨fun hd' j w hj => ?_, fun q' => ?_, fun q' => ?_, fun q' hq' => ?_, ih.conn, ih.inj, ih.nodup, ?_⟩
      · rcases hent with g | ⟨p, v1, g1, g2, g3, g4⟩
        · rw [g] at hd'; cases hd'
        · rw [g1] at hj
          rcases setPhase_cases _ _ _ _ hj with ⟨rfl, e⟩ | ⟨hne, e⟩
          · exact e ▸ g4
          · refine (ih.worker hd j w (g2 ▸ e)).congr rfl fun q' hq' => ⟨setAt_ne _ _ fun e' => hne (ih.inj j i q (e' ▸ hq') hq), rfl⟩
      · by_cases hqq : q' = q
        · subst hqq
          simp only [setAt_self]
          exact (ih.pre q').trans (SyncSampler.clientSamples_prefix (List.prefix_append _ _))
        · simp only [setAt_ne _ _ hqq]; exact ih.pre q'
      · by_cases hqq : q' = q
        · subst hqq; simpa only [setAt_self] using hwr
        · simp only [setAt_ne _ _ hqq]; exact ih.written q'
      · have hqq : q' ≠ q := fun e => hq' (e ▸ ih.conn i q hq)
        simp only [setAt_ne _ _ hqq]
        exact ih.fresh q' hq'
      · unfold arrived at *
        rw [hpu]; exact ih.perm
    · cases hs
  | @pushes evs v v' L i q s _ hq hs hp ih =>
    have hd := dead_of hs
    unfold ClientSampler.step at hs
    rw [if_neg (by simp [hd])] at hs
    have hrest : ∀ {w1 : ClientSampler} {p : SWPhase}, some (setPhase w1 i p) = some v' → w1.pushed = v.pushed → False := by
      intro w1 p e2 e1
      cases e2
      have : w1.pushed = v.pushed ++ [(i, s)] := hp
      rw [e1] at this
      simp at this
    simp only [ClientSampler.work] at hs
    split at hs
    · cases hs
    · rename_i w hw
      have hk := ih.worker hd i w hw
      split at hs
      · simp only [ClientSampler.take, hc] at hs
        split at hs
        · exact (hrest hs rfl).elim
        · split at hs
          · exact (hrest hs rfl).elim
          · cases hs
      · unfold reported at hs
        simp only at hs
        split at hs
        · exact (hrest hs rfl).elim
        · exact (hrest hs rfl).elim
      · cases hs
      · rename_i n got f hph
        rw [hph] at hk
        split at hs
        · split at hs
          · exact (hrest hs rfl).elim
          · exact (hrest hs rfl).elim
        · split at hs
          · cases hs
          · exact (hrest hs rfl).elim
        · cases hs
        · rename_i want sampled s' rest
          simp only [push] at hs
          split at hs
          · cases hs
          · rename_i v1 hpu
            split at hpu
            · cases hpu
            · split at hpu
              · cases hpu
                cases hs
                rw [(entries_quiet _ _ _ _ _ _ _ _).pushed] at hp
                obtain rfl : s' = s := by simpa using hp
                obtain ⟨q', fr, e1, e2, e3, e4⟩ := hk
                rw [hq] at e1; cases e1
                have hent := entries_ok (L := { L with came := setAt L.came q (L.came q ++ [s']) }) (i := i) (q := q) hq
                  { v with
                    queue := v.queue ++ [s']
                    pushed := v.pushed ++ [(i, s')] } n (got + 1) want (sampled + 1) rest [] fr e2 e3 (by simp [setAt_self, e4])
                refine ⟨fun hd' j w hj => ?_, fun q' => ?_, ih.written, fun q' hq' => ?_, ih.conn, ih.inj, ih.nodup, ?_⟩
                · rcases hent with g | ⟨p, v1, g1, g2, g3, g4⟩
                  · rw [g] at hd'; cases hd'
                  · rw [g1] at hj
                    rcases setPhase_cases _ _ _ _ hj with ⟨rfl, e⟩ | ⟨hne, e⟩
                    · exact e ▸ g4
                    · refine (ih.worker hd j w (by rw [g2] at e; exact e)).congr rfl fun q' hq' => ⟨rfl, setAt_ne _ _ fun e' => hne (ih.inj j i q (e' ▸ hq') hq)⟩
                · by_cases hqq : q' = q
                  · subst hqq
                    simp only [setAt_self, List.map_append, List.map_cons, List.map_nil]
                    rw [← e4, e2]
                    exact SyncSampler.clientSamples_prefix (List.prefix_append _ _)
                  · simp only [setAt_ne _ _ hqq]; exact ih.pre q'
                · have hqq : q' ≠ q := fun e => hq' (e ▸ ih.conn i q hq)
                  simp only [setAt_ne _ _ hqq]
                  exact ih.fresh q' hq'
                · unfold arrived at *
                  rw [(entries_quiet _ _ _ _ _ _ _ _).pushed, List.map_append]
                  exact (ih.perm.append_right _).trans (flatMap_set L.came q s' ih.nodup (ih.conn i q hq))
              · cases hpu
          · rename_i v1 hpu
            split at hpu
            · cases hpu
              exact (hrest hs rfl).elim
            · split at hpu <;> cases hpu
        · exact hk.elim
        · cases hs
        · exact hk.elim
  | other _ h1 h2 hs h3 ih => exact ih.other hc h1 h2 hs h3

end ClientSampler
end Verif
