import Verif.Proofs.InsertSync
/-
All items of a stream of the synchronous server are confirmed in order.
-/
namespace Verif.SyncServer

/-- Confirmations that are still to come. -/
def due : SyncPhase → List (String × Key)
  | .inserting it _ _ => if it.confirm then [(it.table, it.key)] else []
  | .confirming it => [(it.table, it.key)]
  | _ => []

/-- What has been confirmed to a stream after the requests. -/
def Answers (reqs : List InsertReq) (conf : List (String × Key)) (p : SyncPhase) : Prop :=
  match p with
  | .ended (some _) => conf <+: wanted reqs
  | p => conf ++ due p = wanted reqs

structure Answered (evs : List Event) (v : SyncServer) : Prop where
  fresh : ∀ s, v.streams.get? s = none → requests s evs = [] ∧ confirmedOf v s = []
  ok : ∀ s x, v.streams.get? s = some x → Answers (requests s evs) (confirmedOf v s) x.phase

theorem Answered.set {evs evs' : List Event} {v v1 : SyncServer} (h : Answered evs v) {s : Nat} {x : SyncStream} (h1 : v1.streams = v.streams)
    (h2 : ∀ s', s' ≠ s → requests s' evs' = requests s' evs ∧ confirmedOf v1 s' = confirmedOf v s')
    (hx : Answers (requests s evs') (confirmedOf v1 s) x.phase) : Answered evs' (v1.setStream s x) := by
  constructor
  · intro s' hs
    rw [setStream_get, h1] at hs
    split at hs
    · cases hs
    · rename_i hne; rw [(h2 s' hne).1]; exact ⟨(h.fresh _ hs).1, (h2 s' hne).2.trans (h.fresh _ hs).2⟩
  · intro s' x' hs
    rw [setStream_get, h1] at hs
    split at hs
    · cases hs; subst_vars; exact hx
    · rename_i hne
      rw [(h2 s' hne).1]
      show Answers _ (confirmedOf v1 s') _
      rw [(h2 s' hne).2]; exact h.ok _ _ hs

theorem Answered.release {evs evs' : List Event} {v v1 : SyncServer} (h : Answered evs v) {s : Nat} {x : SyncStream} {it : InsertItem} (h1 : v1.streams = v.streams)
    (h2 : ∀ s', s' ≠ s → requests s' evs' = requests s' evs ∧ confirmedOf v1 s' = confirmedOf v s')
    (hx : confirmedOf v1 s = wanted (requests s evs')) (hd : (v1.release s x it).dead = false) : Answered evs' (v1.release s x it) := by
  unfold SyncServer.release at hd ⊢
  split
  · rename_i hr; rw [hr] at hd; simp at hd
  · exact h.set h1 h2 (by simpa [Answers, due] using hx)

theorem wanted_snoc (l : List InsertReq) (r : InsertReq) : wanted (l ++ [r]) = wanted l ++ wanted [r] := by simp [wanted]

theorem Answered.step {evs : List Event} {v v' : SyncServer} {e : Event} (h : Answered evs v) (hs : v.step e = some v') (hd : v'.dead = false) :
    Answered (evs ++ [e]) v' := by
  unfold SyncServer.step at hs
  split at hs
  · cases hs
  · cases e with
    | start s =>
      have hn := requests_none (e := .start s) (by simp)
      simp only at hs
      split at hs
      · cases hs
      · rename_i hc
        cases hs
        refine h.set rfl (fun s' _ => ⟨hn s' evs, rfl⟩) ?_
        have := h.fresh s (by simpa [AMap.contains] using hc)
        rw [hn, this.1, this.2]
        rfl
    | request s req =>
      simp only at hs
      split at hs
      · rename_i cache hst
        cases hs
        refine h.set rfl (fun s' hne => ⟨requests_other hne evs req, rfl⟩) ?_
        rw [requests_self]
        have h0 := h.ok s _ hst
        simp only [Answers, due, List.append_nil] at h0
        rw [h0]
        unfold take
        simp only
        split
        · rename_i hi
          simp [Answers, due, wanted, hi]
        · rename_i it hi
          split
          · simp only [Answers]; rw [wanted_snoc]; exact List.prefix_append _ _
          · split
            · simp only [Answers, due]; rw [wanted_snoc]
              congr 1
              simp only [wanted, hi]
              cases hcf : it.confirm <;> simp [hi, hcf]
            · simp only [Answers]; rw [wanted_snoc]; exact List.prefix_append _ _
      · cases hs
    | eof s =>
      have hn := requests_none (e := .eof s) (by simp)
      simp only at hs
      split at hs
      · rename_i cache hst
        cases hs
        refine h.set rfl (fun s' _ => ⟨hn s' evs, rfl⟩) ?_
        rw [hn]
        have h0 := h.ok s _ hst
        exact h0
      · cases hs
    | insert s now d =>
      have hn := requests_none (e := .insert s now d) (by simp)
      simp only at hs
      split at hs
      · rename_i cache it item w hst
        split at hs
        · cases hs
        · rename_i t ht
          cases hs
          have h0 := h.ok s _ hst
          simp only [Answers, due] at h0
          rcases hr : (t.step (if w = true then .insertResume item now d else .insert item now d)).2 with (_ | _ | l) | c | _ <;> rw [hr] at hd
          · simp only [inserted] at hd ⊢
            split
            · rename_i hcf
              refine h.set rfl (fun s' _ => ⟨hn s' evs, rfl⟩) ?_
              rw [hn]
              rw [if_pos hcf] at h0
              exact h0
            · rename_i hcf
              rw [if_neg hcf] at hd h0
              refine h.release rfl (fun s' _ => ⟨hn s' evs, rfl⟩) ?_ hd
              rw [hn, ← h0, List.append_nil]
              rfl
          · simp only [inserted]
            refine h.set rfl (fun s' _ => ⟨hn s' evs, rfl⟩) ?_
            rw [hn]; exact h0
          · simp [inserted] at hd
          · simp only [inserted]
            refine h.set rfl (fun s' _ => ⟨hn s' evs, rfl⟩) ?_
            rw [hn]
            show v.confirmedOf s <+: _
            rw [← h0]
            exact List.prefix_append _ _
          · simp [inserted] at hd
      · cases hs
    | confirm s ok =>
      have hn := requests_none (e := .confirm s ok) (by simp)
      simp only at hs
      split at hs
      · rename_i cache it hst
        have h0 := h.ok s _ hst
        simp only [Answers, due] at h0
        split at hs
        · cases hs
          refine h.release rfl (fun s' hne => ⟨hn s' evs, ?_⟩) ?_ hd
          · simp [confirmedOf, Ne.symm hne]
          · rw [hn, ← h0]
            simp [confirmedOf]
        · cases hs
          refine h.set rfl (fun s' _ => ⟨hn s' evs, rfl⟩) ?_
          rw [hn]
          show v.confirmedOf s <+: _
          rw [← h0]
          exact List.prefix_append _ _
      · cases hs
    | table name op =>
      have hn := requests_none (e := .table name op) (by simp)
      simp only at hs
      split at hs
      · cases hs
      · cases hs
        exact ⟨fun s hg => by rw [hn]; exact h.fresh s hg, fun s x hg => by rw [hn]; exact h.ok s x hg⟩

theorem run_snoc {v v1 : SyncServer} : ∀ {evs : List Event} {e : Event}, v.run evs = some v1 → v.run (evs ++ [e]) = v1.step e
  | [], e, h => by
    cases h
    show (match v.step e with | none => none | some v' => v'.run []) = v.step e
    cases v.step e <;> rfl
  | a :: evs, e, h => by
    simp only [run, List.cons_append] at h ⊢
    split at h
    · cases h
    · exact run_snoc h

theorem step_alive {v v' : SyncServer} {e : Event} (h : v.step e = some v') : v.dead = false := by
  unfold step at h
  split at h
  · cases h
  · rename_i hd; simpa using hd

theorem Answered.run {tables : AMap String Table} {evs : List Event} {v : SyncServer} (hr : (init tables).run evs = some v) (hd : v.dead = false) :
    Answered evs v := by
  have := run_ind (P := fun pre v => (init tables).run pre = some v ∧ (v.dead = false → Answered pre v))
    (fun pre v e v' hp hs => ⟨by rw [run_snoc hp.1, hs], fun hd => (hp.2 (step_alive hs)).step hs hd⟩)
    evs [] _ v ⟨rfl, fun _ => ⟨fun s _ => ⟨rfl, rfl⟩, fun s x h => by simp [SyncServer.init] at h⟩⟩ hr
  exact this.2 hd

end Verif.SyncServer
