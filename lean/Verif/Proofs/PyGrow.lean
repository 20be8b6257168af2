import Verif.Proofs.PyKinds
/-
What `append` answers, and how the structure of the Python writer grows.
-/
namespace Verif
namespace PyWriter

/-! ### The structure -/

theorem addPaths_struct : ∀ (ps : List PyPath) (s : PyWriter), (s.addPaths ps).1.struct = s.struct
  | [], s => rfl
  | p :: ps, s => by
    unfold addPaths
    cases s.index.get? p with
    | some i => exact addPaths_struct ps s
    | none =>
      simp only
      cases hc : s.config.get? p with
      | none => exact addPaths_struct ps { s with index := s.index.insert p s.index.size }
      | some o =>
        simp only
        have hp : (({ s with index := s.index.insert p s.index.size } : PyWriter).cpp (.configure s.index.size o)).1.struct = s.struct := rfl
        rcases hx : ({ s with index := s.index.insert p s.index.size } : PyWriter).cpp (.configure s.index.size o) with ⟨s', _ | _ | _⟩ <;> rw [hx] at hp
        · exact (addPaths_struct ps s').trans hp
        · exact hp
        · exact hp

theorem update_struct (s : PyWriter) (new : PTree Unit) :
    (s.updateStructure new).1.struct = new ∨ (s.updateStructure new).1.struct = s.struct := by
  have := addPaths_struct (new.flattenWithPath.map Prod.fst) s
  unfold updateStructure
  simp only
  rcases hx : s.addPaths (new.flattenWithPath.map Prod.fst) with ⟨s', _ | _ | _⟩ <;> rw [hx] at this
  · exact .inl rfl
  · exact .inr this
  · exact .inr this

theorem appendFlat_struct (s : PyWriter) (data : List (Option Tensor)) (b : Bool) : (s.appendFlat data b).1.struct = s.struct := by
  unfold appendFlat
  split
  · rfl
  · have hp : (s.cpp (.append data !b)).1.struct = s.struct := rfl
    rcases hx : s.cpp (.append data !b) with ⟨s', (_ | _ | _ | _) | _ | _⟩ <;> rw [hx] at hp
    · exact hp
    · simp only
      split <;> exact hp
    · exact hp
    · exact hp
    · exact hp
    · exact hp

theorem appendKnown_struct (s : PyWriter) (data : PTree (Option Tensor)) (b : Bool) : (s.appendKnown data b).1.struct = s.struct ∨
    s.struct.union (data.map fun _ => ()) = some (s.appendKnown data b).1.struct := by
  unfold appendKnown
  split
  · exact .inl (appendFlat_struct _ _ _)
  · split
    · exact .inl rfl
    · rename_i u hu
      rw [hu]
      have := update_struct s u
      rcases hx : s.updateStructure u with ⟨s', _ | _ | _⟩ <;> rw [hx] at this
      · simp only
        split
        · rcases this with h | h
          · exact .inr (by rw [← h])
          · exact .inl h
        · rw [appendFlat_struct]
          rcases this with h | h
          · exact .inr (by rw [← h])
          · exact .inl h
      · rcases this with h | h
        · exact .inr (by rw [← h])
        · exact .inl h
      · rcases this with h | h
        · exact .inr (by rw [← h])
        · exact .inl h

/-- The structure is the one of data that was given, as far as it has something. -/
def FromData (ds : List (PTree (Option Tensor))) (s : PyWriter) : Prop :=
  s.struct = .leaf () ∨ ∀ p k, s.struct.kind? p = some k → ∃ d ∈ ds, d.kind? p = some k

theorem FromData.mono {ds ds' : List (PTree (Option Tensor))} {s : PyWriter} (h : FromData ds s) (hd : ∀ d ∈ ds, d ∈ ds') : FromData ds' s := by
  rcases h with h | h
  · exact .inl h
  · refine .inr fun p k hp => ?_
    obtain ⟨d, h1, h2⟩ := h p k hp
    exact ⟨d, hd d h1, h2⟩

theorem FromData.appendKnown {ds : List (PTree (Option Tensor))} {s : PyWriter} {data : PTree (Option Tensor)} {b : Bool}
    (h : ∀ p k, s.struct.kind? p = some k → ∃ d ∈ ds, d.kind? p = some k) (hw : s.struct.WF) (hd : data ∈ ds)
    (hwd : data.WF) (ha : ∀ d ∈ ds, d.Agree data) : FromData ds (s.appendKnown data b).1 := by
  rcases appendKnown_struct s data b with h1 | h1
  · refine .inr fun p k hp => ?_
    rw [h1] at hp
    exact h p k hp
  · obtain ⟨c, h2, h3⟩ := PTree.union_kind hw (PTree.map_wf (fun _ => ()) hwd) (fun p k k' g1 g2 => by
      obtain ⟨d, d1, d2⟩ := h p k g1
      rw [PTree.map_kind] at g2
      exact ha d d1 p k k' d2 g2)
    rw [h1] at h2
    cases h2
    refine .inr fun p k hp => ?_
    rw [h3] at hp
    cases hs : s.struct.kind? p with
    | some k' =>
      rw [hs] at hp
      cases hp
      exact h p k hs
    | none =>
      rw [hs, PTree.map_kind] at hp
      exact ⟨data, hd, hp⟩

theorem FromData.append {ds : List (PTree (Option Tensor))} {s : PyWriter} {data : PTree (Option Tensor)} {b : Bool}
    (h : FromData ds s) (hw : s.struct.WF) (hd : data ∈ ds) (hwd : data.WF) (ha : ∀ d ∈ ds, d.Agree data) : FromData ds (s.append data b).1 := by
  have hup : ∀ s1 : PyWriter, s1.struct = data.map (fun _ => ()) → ∀ p k, s1.struct.kind? p = some k → ∃ d ∈ ds, d.kind? p = some k := by
    intro s1 h1 p k hp
    rw [h1, PTree.map_kind] at hp
    exact ⟨data, hd, hp⟩
  unfold PyWriter.append
  cases hs : s.struct with
  | dict fs =>
    simp only
    refine FromData.appendKnown (h.resolve_left ?_) hw hd hwd ha
    rw [hs]
    simp
  | seq fs =>
    simp only
    refine FromData.appendKnown (h.resolve_left ?_) hw hd hwd ha
    rw [hs]
    simp
  | leaf u =>
    simp only
    have := update_struct s (data.map fun _ => ())
    rcases hx : s.updateStructure (data.map fun _ => ()) with ⟨s', _ | _ | _⟩ <;> rw [hx] at this
    · rcases this with h1 | h1
      · refine FromData.appendKnown (hup s' h1) ?_ hd hwd ha
        have h1' : s'.struct = data.map fun _ => () := h1
        rw [h1']
        exact PTree.map_wf _ hwd
      · -- the update succeeded, so the structure is the new one
        have h2 : s'.struct = data.map fun _ => () := by
          unfold updateStructure at hx
          simp only at hx
          rcases hy : s.addPaths ((data.map fun _ => ()).flattenWithPath.map Prod.fst) with ⟨s1, _ | _ | _⟩ <;> rw [hy] at hx
          · simp only [Prod.mk.injEq] at hx
            rw [← hx.1]
          · simp at hx
          · simp at hx
        refine FromData.appendKnown (hup s' h2) ?_ hd hwd ha
        rw [h2]
        exact PTree.map_wf _ hwd
    · rcases this with h1 | h1
      · exact .inr (hup s' h1)
      · exact .inl (by simpa [hs] using h1)
    · rcases this with h1 | h1
      · exact .inr (hup s' h1)
      · exact .inl (by simpa [hs] using h1)

theorem handle_struct (s : PyWriter) (e : Event) (he : ∀ data b, e ≠ .append data b) : (s.handle e).1.struct = s.struct := by
  cases e with
  | append data b => exact absurd rfl (he data b)
  | configure path keep m =>
    have : (s.configure path keep m).1.struct = s.struct := by
      unfold configure
      split
      · rfl
      split
      · rfl
      split
      · rename_i i _
        have hp : (s.cpp (.configure i (chunkerOptions keep m))).1.struct = s.struct := rfl
        rcases hx : s.cpp (.configure i (chunkerOptions keep m)) with ⟨s', _ | _ | _⟩ <;> rw [hx] at hp <;> exact hp
      · rfl
    simp only [handle]
    rcases hx : s.configure path keep m with ⟨s', _ | _ | _⟩ <;> rw [hx] at this <;> exact this
  | createItem t p cols => rfl
  | flushBegin k =>
    simp only [handle]
    split <;> rfl
  | flushEnd k b => rfl
  | episodeBegin => rfl
  | episodeEnd clear b =>
    have : (s.pass (.episodeEnd clear)).1.struct = s.struct := rfl
    simp only [handle]
    rcases hx : s.pass (.episodeEnd clear) with ⟨s', (_ | _ | _) | _ | _⟩ <;> rw [hx] at this <;> cases clear <;> exact this
  | close => rfl
  | worker inp => rfl
  | confirm keys => rfl

/-! ### The answers of `append` -/

theorem given_iff {data : PTree (Option Tensor)} {p : PyPath} {t : Tensor} : Journal.given data p = some t ↔ data.at? p = some (some t) := by
  unfold Journal.given
  cases data.at? p with
  | none => simp
  | some o => cases o <;> simp

theorem Inv.appendFlat_reply {w0 : TrajWriter} {W : PyPath → ChunkerOpts} {f : Key → Int} {s : PyWriter} {J : Journal}
    {cols : List PyPath} (h : Inv w0 W f s J cols) {data : PTree (Option Tensor)} {flat : List (Option Tensor)}
    (hl : flat.length = cols.length) (hp : ∀ p a, data.at? p = some a → p ∈ cols)
    (hf : ∀ (i : Nat) p, cols[i]? = some p → flat[i]? = some (Journal.given data p)) (partialStep : Bool) :
    ((s.appendFlat flat partialStep).2 = .raised .valueError ↔ Twice J data) ∧ (s.appendFlat flat partialStep).2 ≠ .raised .keyError ∧
      (s.appendFlat flat partialStep).2 ≠ .raised .typeError ∧ (s.appendFlat flat partialStep).2 ≠ .raised .runtimeError := by
  have hcf : (s.isOpen && s.conflict flat) = true ↔ Twice J data := by
    rw [Bool.and_eq_true, h.isOpen, Twice]
    refine and_congr_right fun ho => ?_
    have hne := h.openNe ho
    obtain ⟨init, st, hst⟩ := (List.eq_nil_or_concat J.steps).resolve_left hne
    have hlast : J.steps.getLast? = some st := by rw [hst]; simp
    have hn : J.steps[init.length]? = some st := by rw [hst]; simp
    have hentry : ∀ (i : Nat) p c, cols[i]? = some p → s.history[i]? = some c → (c.canSetLast = true ↔ st p = none) := by
      intro i p c h1 h2
      have hcl := h.len c (List.mem_of_getElem? h2)
      have hlt : init.length < c.refs.length := by rw [hcl, hst]; simp
      have he := h.entries i p c init.length st _ h1 h2 hn (List.getElem?_eq_getElem hlt)
      have hgl : c.refs.getLast? = some (c.refs[init.length]'hlt) := by
        rw [List.getLast?_eq_getElem?, hcl, hst]
        simp
      rw [ColHist.canSetLast, hgl, beq_iff_eq, Option.some.injEq]
      cases hr : c.refs[init.length]'hlt with
      | none =>
        rw [hr] at he
        cases hs : st p with
        | none => simp
        | some t => rw [hs] at he; exact he.elim
      | some r =>
        rw [hr] at he
        cases hs : st p with
        | none => rw [hs] at he; exact he.elim
        | some t => simp
    unfold conflict
    rw [List.any_eq_true]
    constructor
    · rintro ⟨⟨c, o⟩, hm, hc⟩
      obtain ⟨i, h1, h2⟩ := PTree.mem_zip_iff.mp hm
      have hi : i < cols.length := by rw [← h.hist]; exact (List.getElem?_eq_some_iff.mp h1).1
      have hci := List.getElem?_eq_getElem hi
      rw [hf i _ hci] at h2
      simp only [Option.some.injEq] at h2
      simp only [Bool.and_eq_true, Bool.not_eq_true'] at hc
      obtain ⟨t, rfl⟩ := Option.isSome_iff_exists.mp hc.1
      have hx := hentry i _ c hci h1
      cases hs : st cols[i] with
      | none =>
        rw [hx.mpr hs] at hc
        cases hc.2
      | some t' => exact ⟨st, cols[i], t, t', hlast, given_iff.mp h2, hs⟩
    · rintro ⟨st', p, t, t', h1, h2, h3⟩
      rw [hlast] at h1
      cases h1
      obtain ⟨i, hi⟩ := List.getElem?_of_mem (hp p _ h2)
      have hih : i < s.history.length := by rw [h.hist]; exact (List.getElem?_eq_some_iff.mp hi).1
      have hc := List.getElem?_eq_getElem hih
      refine ⟨(s.history[i], some t), PTree.mem_zip_iff.mpr ⟨i, hc, by rw [hf i p hi, given_iff.mpr h2]⟩, ?_⟩
      have hx := hentry i p _ hi hc
      cases hcs : (s.history[i]).canSetLast with
      | true => rw [hx.mp hcs] at h3; cases h3
      | false => simp [hcs]
  unfold PyWriter.appendFlat
  by_cases hc : (s.isOpen && s.conflict flat) = true
  · rw [if_pos hc]
    exact ⟨⟨fun _ => hcf.mp hc, fun _ => rfl⟩, by simp, by simp, by simp⟩
  · rw [if_neg hc]
    have hnt : ¬ Twice J data := fun x => hc (hcf.mpr x)
    rcases TrajWriter.handle_clock s.w (.append flat !partialStep) with ⟨_, _, refs, he, k1, k2, k3⟩ | ⟨_, he, _⟩ | ⟨k1, k2, k3, _⟩
    · cases he
      have hlen : refs.map Option.isSome = flat.map Option.isSome := by
        apply TrajWriter.append_some (w := s.w) (inc := !partialStep)
        simp only [TrajWriter.handle] at k1
        rcases hx : (s.w.append flat !partialStep).2 with a | e | _ <;> rw [hx] at k1 <;> simp [TrajWriter.Reply.of] at k1
        rw [k1]
      have hrl : refs.length = cols.length := by
        have := congrArg List.length hlen
        simp only [List.length_map] at this
        omega
      have hrec := record_ok (isOpen := s.isOpen) (hs := s.history) (rs := refs) (by rw [h.hist, hrl]) (by
        intro i c x hci hx ho
        have hfl : ∃ t, flat[i]? = some (some t) := by
          have : (refs[i]?.map Option.isSome) = flat[i]?.map Option.isSome := by rw [← List.getElem?_map, ← List.getElem?_map, hlen]
          rw [hx] at this
          cases hfi : flat[i]? with
          | none => rw [hfi] at this; simp at this
          | some o =>
            rw [hfi] at this
            cases o with
            | none => simp at this
            | some t => exact ⟨t, rfl⟩
        obtain ⟨t, ht⟩ := hfl
        rw [ho, Bool.true_and] at hc
        simp only [conflict, Bool.not_eq_true] at hc
        rw [List.any_eq_false] at hc
        have := hc _ (PTree.mem_zip_iff.mpr ⟨i, hci, ht⟩)
        simpa using this)
      obtain ⟨hs', r1, _⟩ := hrec
      have hcpp : s.cpp (.append flat !partialStep) = ((s.cpp (.append flat !partialStep)).1, .ok (.refs refs)) := by
        rw [← k1]; rfl
      rw [hcpp]
      simp only
      have hso : (s.cpp (.append flat !partialStep)).1.isOpen = s.isOpen := rfl
      have hsh : (s.cpp (.append flat !partialStep)).1.history = s.history := rfl
      rw [hso, hsh, r1]
      exact ⟨⟨fun x => by simp at x, fun x => absurd x hnt⟩, by simp, by simp, by simp⟩
    · cases he
    · rcases hx : s.cpp (.append flat !partialStep) with ⟨s', (_ | refs | _ | _) | _ | _⟩
      · exact ⟨⟨fun x => by simp at x, fun x => absurd x hnt⟩, by simp, by simp, by simp⟩
      · exfalso
        refine k3 refs ?_
        have := congrArg Prod.snd hx
        exact this
      all_goals exact ⟨⟨fun x => by simp at x, fun x => absurd x hnt⟩, by simp, by simp, by simp⟩

theorem Inv.appendKnown_reply {w0 : TrajWriter} {W : PyPath → ChunkerOpts} {f : Key → Int} {s : PyWriter} {J : Journal}
    {cols : List PyPath} (h : Inv w0 W f s J cols) (hne : cols ≠ []) {data : PTree (Option Tensor)} (hd : data.WF) (ha : s.struct.Agree data)
    (partialStep : Bool) :
    ((s.appendKnown data partialStep).2 = .raised .valueError ↔ Twice J data) ∧ (s.appendKnown data partialStep).2 ≠ .raised .keyError ∧
      (s.appendKnown data partialStep).2 ≠ .raised .typeError ∧ (s.appendKnown data partialStep).2 ≠ .raised .runtimeError := by
  have hsh : s.Shaped cols := by
    rcases h.shape with ⟨h, _⟩ | ⟨_, h⟩
    · exact absurd h hne
    · exact h
  unfold PyWriter.appendKnown
  cases hr : s.reorder data.flattenWithPath with
  | some flat =>
    obtain ⟨g1, g2, g3⟩ := reorder_ok h.idx hd hr
    exact h.appendFlat_reply g1 g2 g3 partialStep
  | none =>
    simp only
    obtain ⟨u, hu, hk⟩ := PTree.union_kind hsh.wf (PTree.map_wf (fun _ => ()) hd) (fun p k k' g1 g2 => by
      rw [PTree.map_kind] at g2
      exact ha p k k' g1 g2)
    rw [hu]
    simp only
    obtain ⟨u1, u2⟩ := PTree.union_ok hu hsh.wf (PTree.map_wf _ hd)
    obtain ⟨p, hp⟩ := List.exists_mem_of_ne_nil _ hne
    obtain ⟨s1, cols', a1, a2, a3⟩ := h.update u1 (union_node hu hsh.node) ⟨p, u2 p ((hsh.paths p).mpr hp)⟩
      fun q hq => u2 q ((hsh.paths q).mpr hq)
    rw [a1]
    simp only
    have hin : ∀ p a, data.at? p = some a → p ∈ cols' := by
      intro p a hpa
      rw [a3]
      have h1 : data.kind? p = some .leaf := (PTree.at_kind data p).mp (by rw [hpa]; rfl)
      have h2 : u.kind? p = some .leaf := by
        rw [hk p, PTree.map_kind, h1]
        cases hs : s.struct.kind? p with
        | none => rfl
        | some k => rw [ha p k _ hs h1]; rfl
      obtain ⟨x, hx⟩ := Option.isSome_iff_exists.mp ((PTree.at_kind u p).mpr h2)
      rw [hx]
    obtain ⟨flat, hfl⟩ := reorder_total a2.idx hd hin
    rw [hfl]
    obtain ⟨g1, g2, g3⟩ := reorder_ok a2.idx hd hfl
    exact a2.appendFlat_reply g1 g2 g3 partialStep

theorem Inv.append_reply {w0 : TrajWriter} {W : PyPath → ChunkerOpts} {f : Key → Int} {s : PyWriter} {J : Journal}
    {cols : List PyPath} (h : Inv w0 W f s J cols) {data : PTree (Option Tensor)} {partialStep : Bool}
    (hv : (Event.append data partialStep).Valid) (ha : cols ≠ [] → s.struct.Agree data) :
    ((s.append data partialStep).2 = .raised .valueError ↔ Twice J data) ∧ (s.append data partialStep).2 ≠ .raised .keyError ∧
      (s.append data partialStep).2 ≠ .raised .typeError ∧ (s.append data partialStep).2 ≠ .raised .runtimeError := by
  obtain ⟨v1, v2, ⟨p, v3⟩, v4⟩ := hv
  unfold PyWriter.append
  rcases h.shape with ⟨hc, hs⟩ | ⟨hc, hs⟩
  · rw [hs]
    simp only
    have hat : ∀ p, (data.map fun _ => ()).at? p = some () ↔ (data.at? p).isSome := by
      intro p
      rw [PTree.map_at]
      cases data.at? p <;> simp
    obtain ⟨s1, cols', a1, a2, a3⟩ := h.update (new := data.map fun _ => ()) (PTree.map_wf _ v1) (by
        intro a ha
        cases data with
        | leaf x => exact v2 x rfl
        | dict fs => simp [PTree.map] at ha
        | seq ts => simp [PTree.map] at ha) ⟨p, (hat p).mpr v3⟩ (by rw [hc]; simp)
    have hst : s1.struct = data.map fun _ => () := by
      unfold updateStructure at a1
      simp only at a1
      rcases hy : s.addPaths ((data.map fun _ => ()).flattenWithPath.map Prod.fst) with ⟨s2, _ | _ | _⟩ <;> rw [hy] at a1
      · simp only [Prod.mk.injEq] at a1
        rw [← a1.1]
      · simp at a1
      · simp at a1
    rw [a1]
    refine a2.appendKnown_reply (List.ne_nil_of_mem ((a3 p).mpr ((hat p).mpr v3))) v1 ?_ partialStep
    intro q k k' g1 g2
    rw [hst, PTree.map_kind, g2] at g1
    exact (Option.some.inj g1).symm
  · have := h.appendKnown_reply hc v1 (ha hc) partialStep
    cases hst' : s.struct with
    | leaf x => exact absurd hst' (hs.node x)
    | dict fs => exact this
    | seq ts => exact this

/-- The structure after a run. -/
theorem Started.fromData {s : PyWriter} (h : s.Started) {evs : List Event} (hv : ∀ e ∈ evs, e.Valid) (ht : s.Tidy evs)
    (ha : ∀ d ∈ appended evs, ∀ d' ∈ appended evs, d.Agree d') : FromData (appended evs) (s.run evs) := by
  have key : ∀ n, n ≤ evs.length → FromData (appended evs) (s.run (evs.take n)) := by
    intro n
    induction n with
    | zero =>
      intro _
      refine .inl ?_
      show s.struct = _
      rw [h.new]
      rfl
    | succ n ih =>
      intro hn
      have hlt : n < evs.length := by omega
      have htake : evs.take (n + 1) = evs.take n ++ [evs[n]] := by rw [List.take_succ_eq_append_getElem hlt]
      have hsplit : evs = evs.take n ++ evs[n] :: evs.drop (n + 1) := by
        rw [← List.drop_eq_getElem_cons hlt, List.take_append_drop]
      have h1 := ih (by omega)
      have hrun : s.run (evs.take (n + 1)) = ((s.run (evs.take n)).handle evs[n]).1 := by
        rw [htake, run, List.foldl_append]
        rfl
      rw [hrun]
      have htidy : s.Tidy (evs.take n) := by
        intro pre t post he hr
        exact ht pre t (post ++ evs[n] :: evs.drop (n + 1)) (by conv => lhs; rw [hsplit, he]
                                                                simp) hr
      obtain ⟨W, f, cols, hI, _⟩ := h.pyRun (evs := evs.take n) (fun e he => hv e (List.mem_of_mem_take he)) htidy
      cases he : evs[n] with
      | append data b =>
        have hmem : Event.append data b ∈ evs := by rw [← he]; exact List.getElem_mem hlt
        have hd : data ∈ appended evs := List.mem_filterMap.mpr ⟨_, hmem, rfl⟩
        have hw : (s.run (evs.take n)).struct.WF := by
          rcases hI.shape with ⟨_, g⟩ | ⟨_, g⟩
          · rw [g, PTree.WF]; trivial
          · exact g.wf
        have := h1.append (data := data) (b := b) hw hd (hv _ hmem).1 fun d hdm => ha d hdm data hd
        simp only [PyWriter.handle]
        rcases hx : (s.run (evs.take n)).append data b with ⟨s', _ | _ | _⟩ <;> rw [hx] at this <;> exact this
      | _ =>
        rcases h1 with h1 | h1
        · exact .inl (by rw [handle_struct _ _ (by simp)]; exact h1)
        · exact .inr (by rw [handle_struct _ _ (by simp)]; exact h1)
  have := key evs.length (Nat.le_refl _)
  rwa [List.take_length] at this

end PyWriter
end Verif
