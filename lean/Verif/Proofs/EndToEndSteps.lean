import Verif.Spec.EndToEndSteps
import Verif.Proofs.EndToEnd
import Verif.Proofs.Isolation
import Verif.Props.C42_Writer
import Verif.Props.C44_C46_Sample
/-
From the old writer through a server to a sampler, for any server that keeps what it is given.
-/
namespace Verif

/-! ### What is in a sample -/

/-- The columns of steps that are cut into parts. -/
def columnsOf (spec : StepSpec) (parts : List (List Timestep)) : List RowColumn :=
  spec.mapIdx fun i x => ⟨x.1, x.2, parts.map fun p => p.filterMap (·[i]?)⟩

theorem Timestep.Of.get {step : Timestep} {spec : StepSpec} (h : step.Of spec) {i : Nat} {x : DType × List Nat} (hi : spec[i]? = some x) :
    ∃ t, step[i]? = some t ∧ Tensor.Is x.1 x.2 t := by
  have hlt : i < step.length := by rw [h.1]; exact (List.getElem?_eq_some_iff.mp hi).1
  exact ⟨step[i], List.getElem?_eq_getElem hlt, h.2 i _ _ _ hi (List.getElem?_eq_getElem hlt)⟩

theorem pick_map {spec : StepSpec} {steps : List Timestep} (h : ∀ s ∈ steps, s.Of spec) {i : Nat} {x : DType × List Nat} (hi : spec[i]? = some x) :
    (steps.filterMap (·[i]?)).map some = steps.map (·[i]?) ∧ ∀ t ∈ steps.filterMap (·[i]?), Tensor.Is x.1 x.2 t := by
  constructor
  · induction steps with
    | nil => rfl
    | cons s steps ih =>
      obtain ⟨t, ht, _⟩ := (h s List.mem_cons_self).get hi
      rw [List.filterMap_cons, ht, List.map_cons, List.map_cons, ht, ih fun u hu => h u (List.mem_cons_of_mem _ hu)]
  · intro t ht
    obtain ⟨s, hs, he⟩ := List.mem_filterMap.mp ht
    obtain ⟨u, hu, hi'⟩ := (h s hs).get hi
    rw [hu] at he
    cases he
    exact hi'

theorem pick_length {spec : StepSpec} {steps : List Timestep} (h : ∀ s ∈ steps, s.Of spec) {i : Nat} {x : DType × List Nat} (hi : spec[i]? = some x) :
    (steps.filterMap (·[i]?)).length = steps.length := by
  have := congrArg List.length (pick_map h hi).1
  simpa using this

theorem rows_columnsOf {parts : List (List Timestep)} {i : Nat} {x : DType × List Nat} :
    (RowColumn.mk x.1 x.2 (parts.map fun p => p.filterMap (·[i]?))).rows = parts.flatten.filterMap (·[i]?) := by
  simp only [RowColumn.rows]
  induction parts with
  | nil => rfl
  | cons p ps ih => rw [List.map_cons, List.flatten_cons, ih, List.flatten_cons, List.filterMap_append]

theorem mem_columnsOf {spec : StepSpec} {parts : List (List Timestep)} {c : RowColumn} (h : c ∈ columnsOf spec parts) :
    ∃ (i : Nat) (x : DType × List Nat), spec[i]? = some x ∧ c = ⟨x.1, x.2, parts.map fun p => p.filterMap (·[i]?)⟩ := by
  obtain ⟨i, hi, rfl⟩ := List.mem_mapIdx.mp h
  exact ⟨i, spec[i], List.getElem?_eq_getElem hi, rfl⟩

/-- What an item shows can be unpacked: it is given out all at once, or step by step. -/
theorem ShowsSteps.sample {s : SampledItem} {spec : StepSpec} {steps : List Timestep} (hv : s.Valid) (hne : spec ≠ []) (hst : steps ≠ [])
    (h : ShowsSteps s.traj s.chunks spec.length steps) (hfit : ∀ x ∈ steps, x.Of spec) :
    ∃ smp, asSampleLocal s = .ok smp ∧ smp.asTrajectory = .ok (stackSteps spec steps) ∧
      smp.asBatchedTimesteps = .ok (Int.ofNat steps.length, stackSteps spec steps) ∧ smp.isEndOfSample = false ∧
      ∃ out s', smp.deliverN steps.length = .ok (out, s') ∧ s'.isEndOfSample = true ∧ out.length = steps.length ∧
        ∀ k data last, out[k]? = some (data, last) → steps[k]? = some data ∧ last = decide (k + 1 = steps.length) := by
  obtain ⟨h1, parts, rfl, h3, h4⟩ := h
  have hfp : ∀ p ∈ parts, ∀ x ∈ p, x.Of spec := fun p hp x hx => hfit x (List.mem_flatten.mpr ⟨p, hp, hx⟩)
  have hpne : parts ≠ [] := by rintro rfl; exact hst rfl
  have hshows : s.Shows (columnsOf spec parts) := by
    refine ⟨by simp [columnsOf, h1], fun i col rc hi hrc => ?_⟩
    obtain ⟨g1, g2, g3⟩ := h4 i col hi
    rw [columnsOf, List.getElem?_mapIdx, Option.map_eq_some_iff] at hrc
    obtain ⟨x, hx, rfl⟩ := hrc
    refine ⟨by simp [g2], fun j sl rows hj hrows => ?_⟩
    rw [List.getElem?_map, Option.map_eq_some_iff] at hrows
    obtain ⟨p, hp, rfl⟩ := hrows
    have hpm := List.mem_of_getElem? hp
    obtain ⟨d, sh, rows, hsel, hr⟩ := g3 j sl p hj hp
    obtain ⟨k1, k2⟩ := pick_map (hfp p hpm) hx
    have hrows : rows = p.filterMap (·[i]?) := by
      rw [← k1] at hr
      exact (List.map_inj_right fun _ _ h => Option.some.inj h).mp hr
    subst hrows
    have hsome : ∃ t, t ∈ p.filterMap (·[i]?) := by
      have hl := pick_length (hfp p hpm) hx
      have := List.length_pos_iff.mpr (h3 p hpm)
      exact List.exists_mem_of_length_pos (by omega)
    obtain ⟨t, ht⟩ := hsome
    have hi1 := k2 t ht
    have hi2 : Tensor.Is d sh t := by
      obtain ⟨c, all, off, len, _, _, _, e1, _, _, _, e2⟩ := hsel
      rw [e2] at ht
      exact e1 t (List.mem_of_mem_drop (List.mem_of_mem_take ht))
    have e1 : d = x.1 := hi2.2.1.symm.trans hi1.2.1
    have e2 : sh = x.2 := hi2.2.2.symm.trans hi1.2.2
    subst e1
    subst e2
    exact hsel
  have hcne : columnsOf spec parts ≠ [] := by
    intro h
    have := congrArg List.length h
    simp only [columnsOf, List.length_mapIdx, List.length_nil] at this
    exact hne (List.length_eq_zero_iff.mp this)
  have hcv : ∀ c ∈ columnsOf spec parts, c.Valid ∧ c.chunks ≠ [] := by
    intro c hc
    obtain ⟨i, x, hx, rfl⟩ := mem_columnsOf hc
    refine ⟨⟨?_, ?_⟩, by simpa using hpne⟩
    · rw [rows_columnsOf]
      exact (pick_map hfit hx).2
    · intro ch hch
      obtain ⟨p, hp, rfl⟩ := List.mem_map.mp hch
      intro h0
      have h1 := pick_length (hfp p hp) hx
      rw [h0] at h1
      exact h3 p hp (List.length_eq_zero_iff.mp h1.symm)
  have hcol : ∀ c ∈ columnsOf spec parts, c.rows.length = parts.flatten.length := by
    intro c hc
    obtain ⟨i, x, hx, rfl⟩ := mem_columnsOf hc
    rw [rows_columnsOf]
    exact pick_length hfit hx
  have hcut : ∀ c ∈ columnsOf spec parts, c.lengths = parts.map List.length := by
    intro c hc
    obtain ⟨i, x, hx, rfl⟩ := mem_columnsOf hc
    simp only [RowColumn.lengths, List.map_map]
    exact List.map_congr_left fun p hp => pick_length (hfp p hp) hx
  have hstack : (columnsOf spec parts).map (fun c => Tensor.stack c.dtype c.shape c.rows) = stackSteps spec parts.flatten := by
    apply List.ext_getElem?
    intro i
    simp only [columnsOf, stackSteps, List.getElem?_map, List.getElem?_mapIdx, Option.map_map]
    cases spec[i]? with
    | none => rfl
    | some x => simp only [Option.map_some, Function.comp_apply]; rw [rows_columnsOf]
  have hloc := asSampleLocal_shows hv.nodup hshows
  obtain ⟨smp, out, e1, _, e2, e3, e4⟩ := C44_data hv hshows hcne hcv (fun i col c hi _ hq => by
    rw [(h4 i col hi).1] at hq
    cases hq)
  obtain ⟨smp2, f1, f2, f3⟩ := C46_batched (info := s.info) (squeeze := s.traj.map Column.squeeze) hcne (fun c hc => (hcv c hc).2) hcol
  obtain ⟨smp3, outs, s', g1, g2, g3, g4, g5⟩ := C46_partial (info := s.info) (squeeze := s.traj.map Column.squeeze) hcne hcv hcol
    (fun c hc c' hc' => by rw [hcut c hc, hcut c' hc'])
  have e12 : smp2 = smp := by rw [← hloc, e1] at f1; cases f1; rfl
  have e13 : smp3 = smp := by rw [← hloc, e1] at g1; cases g1; rfl
  subst e12
  subst e13
  rw [hstack] at f3
  refine ⟨smp3, e1, ?_, f3, ?_, outs, s', g2, g3, g4, fun k data last hk => ?_⟩
  · rw [e2]
    congr 1
    apply List.ext_getElem?
    intro i
    rw [← hstack, List.getElem?_map]
    cases hc : (columnsOf spec parts)[i]? with
    | none =>
      have : (columnsOf spec parts).length ≤ i := List.getElem?_eq_none_iff.mp hc
      rw [Option.map_none, List.getElem?_eq_none_iff]
      omega
    | some c =>
      have hlt : i < (columnsOf spec parts).length := (List.getElem?_eq_some_iff.mp hc).1
      have hlt1 : i < out.length := by omega
      have hlt2 : i < s.traj.length := by rw [hshows.1]; exact hlt
      have := e4 i s.traj[i] c out[i] (List.getElem?_eq_getElem hlt2) hc (List.getElem?_eq_getElem hlt1)
      rw [(h4 i _ (List.getElem?_eq_getElem hlt2)).1] at this
      rw [List.getElem?_eq_getElem hlt1, Option.map_some]
      simpa using this
  · cases hN : parts.flatten with
    | nil => exact absurd hN hst
    | cons a l =>
      have hlen : parts.flatten.length = l.length + 1 := by rw [hN]; rfl
      rw [hlen] at g2
      unfold Sample.deliverN at g2
      split at g2
      · cases g2
      · cases g2
      · rename_i hdel
        unfold Sample.deliver at hdel
        split at hdel
        · cases hdel
        · cases hdel
        · split at hdel
          · rename_i hnt
            unfold Sample.nextTimestep at hnt
            split at hnt
            · cases hnt
            · rename_i he
              simpa using he
          · cases hdel
          · cases hdel
  · obtain ⟨k1, k2⟩ := g5 k data last hk
    refine ⟨?_, k2⟩
    have hk' : k < parts.flatten.length := by rw [← g4]; exact (List.getElem?_eq_some_iff.mp hk).1
    rw [List.getElem?_eq_getElem hk']
    have hof := hfit _ (List.getElem_mem hk')
    congr 1
    apply List.ext_getElem?
    intro i
    have := congrArg (fun l => l[i]?) k1
    simp only [List.getElem?_map] at this
    cases hx : spec[i]? with
    | none =>
      have h5 : spec.length ≤ i := List.getElem?_eq_none_iff.mp hx
      rw [List.getElem?_eq_none (by rw [hof.1]; exact h5)]
      have : data.length = (columnsOf spec parts).length := by simpa using congrArg List.length k1
      rw [List.getElem?_eq_none (by rw [this]; simpa [columnsOf] using h5)]
    | some x =>
      obtain ⟨t, ht, _⟩ := hof.get hx
      rw [ht]
      simp only [columnsOf, List.getElem?_mapIdx, hx, Option.map_some, rows_columnsOf] at this
      have hrow : (parts.flatten.filterMap (·[i]?))[k]? = some t := by
        have h6 := congrArg (fun l => l[k]?) (pick_map hfit hx).1
        simp only [List.getElem?_map, List.getElem?_eq_getElem hk', Option.map_some, ht, Option.map_eq_some_iff, Option.some.injEq, exists_eq_right] at h6
        exact h6
      rw [hrow] at this
      simp only [Option.map_eq_some_iff, Option.some.injEq, exists_eq_right] at this
      exact this.symm

/-! ### Reading step by step -/

theorem Sample.deliver_last {s s' : Sample} {d : List Tensor} {l : Bool} (h : s.deliver = .ok (d, l, s')) : l = s'.isEndOfSample := by
  unfold Sample.deliver at h
  split at h
  · cases h
  · cases h
  · split at h <;> cases h
    rfl

theorem Sample.deliverN_split : ∀ {n : Nat} {s sn : Sample} {ds : List (List Tensor × Bool)}, s.deliverN n = .ok (ds, sn) → ∀ k < n,
    ∃ sk d l s', s.deliverN k = .ok (ds.take k, sk) ∧ ds[k]? = some (d, l) ∧ sk.deliver = .ok (d, l, s') ∧ s.deliverN (k + 1) = .ok (ds.take (k + 1), s')
  | 0, s, sn, ds, h, k, hk => by omega
  | n + 1, s, sn, ds, h, k, hk => by
    unfold Sample.deliverN at h
    split at h
    · cases h
    · cases h
    · rename_i d l s1 hd
      split at h
      · cases h
      · cases h
      · rename_i out s2 hout
        simp only [Res.ok.injEq, Prod.mk.injEq] at h
        obtain ⟨rfl, rfl⟩ := h
        cases k with
        | zero => exact ⟨s, d, l, s1, rfl, rfl, hd, by simp [Sample.deliverN, hd]⟩
        | succ k =>
          obtain ⟨sk, d', l', s', g1, g2, g3, g4⟩ := deliverN_split hout k (by omega)
          exact ⟨sk, d', l', s', by simp [Sample.deliverN, hd, g1], by simpa using g2, g3, by
            show Sample.deliverN (k + 1 + 1) s = _
            rw [Sample.deliverN, hd]
            dsimp only
            rw [g4]
            simp⟩

namespace ClientSampler

/-- Reading a sample whose steps are known. -/
theorem Reads.gives {c : SamplerCfg} {s s' : Sample} {out : List SampleOut} (h : Reads c s out s') {steps : List Timestep} {ds : List (List Tensor × Bool)} {sn : Sample}
    (hd : s.deliverN steps.length = .ok (ds, sn)) (hend : sn.isEndOfSample = true) (hstart : s.isEndOfSample = false) (hlen : ds.length = steps.length)
    (hds : ∀ k data last, ds[k]? = some (data, last) → steps[k]? = some data ∧ last = decide (k + 1 = steps.length)) :
    GivesSteps c steps out ∧ s.deliverN out.length = .ok (ds.take out.length, s') ∧ (s'.isEndOfSample = true → out.length = steps.length) := by
  induction h with
  | nil => exact ⟨⟨Nat.zero_le _, by simp⟩, rfl, by rw [hstart]; simp⟩
  | @step s1 s2 out o h1 hne ho ih =>
    obtain ⟨⟨g1, g2⟩, g3, g4⟩ := ih
    have hlt : out.length < steps.length := by
      rcases Nat.lt_or_eq_of_le g1 with h | h
      · exact h
      · rw [h, hd] at g3
        simp only [Res.ok.injEq, Prod.mk.injEq] at g3
        rw [← g3.2, hend] at hne
        cases hne
    obtain ⟨sk, d, l, s', k1, k2, k3, k4⟩ := Sample.deliverN_split hd _ hlt
    rw [g3] at k1
    simp only [Res.ok.injEq, Prod.mk.injEq, true_and] at k1
    subst k1
    obtain ⟨m1, m2⟩ := hds _ _ _ k2
    have hs' : s2 = s' ∧ (o = .timestep d l ∨ c.spec ≠ none ∧ ∃ e, o = .error e) := by
      unfold Sample.stepOutcome at ho
      rw [k3] at ho
      dsimp only at ho
      split at ho
      · rename_i e he
        cases ho
        refine ⟨rfl, .inr ⟨?_, e, rfl⟩⟩
        intro h0
        rw [h0] at he
        cases he
      · cases ho
        exact ⟨rfl, .inl rfl⟩
    obtain ⟨rfl, hs2⟩ := hs'
    refine ⟨⟨by rw [List.length_append]; exact hlt, ?_⟩, ?_, ?_⟩
    · intro k o' hk
      by_cases hkl : k < out.length
      · rw [List.getElem?_append_left hkl] at hk
        exact g2 k o' hk
      · have hlt2 := (List.getElem?_eq_some_iff.mp hk).1
        simp only [List.length_append, List.length_singleton] at hlt2
        have : k = out.length := by omega
        subst this
        simp only [List.getElem?_concat_length, Option.some.injEq] at hk
        subst hk
        rw [← m2]
        exact ⟨d, m1, hs2⟩
    · rw [List.length_append]
      exact k4
    · intro he
      rw [← Sample.deliver_last k3, m2] at he
      rw [List.length_append]
      simpa using he

/-- A complete log from the samples. -/
theorem ReadAll.log {c : SamplerCfg} {done : List Sample} {out : List SampleOut} (h : ReadAll c done out) {P : List Timestep → Prop}
    (hs : ∀ s ∈ done, ∃ steps, P steps ∧ ∀ o s', Reads c s o s' → GivesSteps c steps o ∧ (s'.isEndOfSample = true → o.length = steps.length)) :
    StepLog c P out := by
  induction h with
  | nil => exact .nil
  | @sample done out s steps s' h1 hr he ih =>
    obtain ⟨st, g1, g2⟩ := hs s (by simp)
    obtain ⟨g3, g4⟩ := g2 _ _ hr
    exact (ih fun x hx => hs x (List.mem_append_left _ hx)).item g1 g3 (g4 he)
  | other st _ ih => exact (ih hs).other st

end ClientSampler

/-! ### The way through the server -/

namespace Writer

theorem history_offered {w : Writer} : ∀ {evs : List Event} {step : Timestep}, step ∈ w.history evs → ∃ as, (Call.append step, as) ∈ evs
  | [], step, h => by simp [history] at h
  | (c, as) :: rest, step, h => by
    simp only [history, List.mem_append] at h
    rcases h with h | h
    · unfold appended at h
      split at h
      · rename_i data as' heq
        split at h
        · simp only [List.mem_singleton] at h
          subst h
          exact ⟨as, by cases heq; simp⟩
        · simp at h
      · simp at h
    · obtain ⟨as', h'⟩ := history_offered h
      exact ⟨as', List.mem_cons_of_mem _ h'⟩

end Writer

/-- The chunks that come with an item are those of its trajectory. -/
theorem serveAll_keys {srv : Server} : ∀ {s : List Msg} {cache0 cache : Cache} {ins : List (WItem × List ChunkData)},
    serveAll srv cache0 s = .ok (cache, ins) → (∀ k ch, cache0.get? k = some ch → ch.key = k) → ∀ y ∈ ins, y.2.map ChunkData.key = getChunkKeys y.1.traj
  | [], cache0, cache, ins, h, hk, y, hy => by
    simp only [serveAll, Res.ok.injEq, Prod.mk.injEq] at h
    rw [← h.2] at hy
    simp at hy
  | m :: s, cache0, cache, ins, h, hk, y, hy => by
    simp only [serveAll] at h
    rcases h1 : serve srv cache0 m with ⟨c1, i1⟩ | _ | _ <;> simp only [h1] at h
    · rcases h2 : serveAll srv c1 s with ⟨c2, i2⟩ | _ | _ <;> simp only [h2] at h
      · simp only [Res.ok.injEq, Prod.mk.injEq] at h
        obtain ⟨_, rfl⟩ := h
        have hsave : ∀ k ch, (saveChunks srv cache0 m.chunks).get? k = some ch → ch.key = k := by
          intro k ch hg
          rcases saveChunks_get srv m.chunks cache0 k ch hg with g | ⟨_, g⟩
          · exact hk k ch g
          · exact g
        have hc1 : (∀ k ch, c1.get? k = some ch → ch.key = k) ∧ ∀ z ∈ i1.toList, z.2.map ChunkData.key = getChunkKeys z.1.traj := by
          unfold serve at h1
          split at h1
          · cases h1
          · split at h1
            · cases h1; exact ⟨hsave, by simp⟩
            · split at h1
              · cases h1
              · rename_i chunks hf
                split at h1
                · cases h1
                · rename_i c hrel
                  cases h1
                  refine ⟨fun k ch hg => ?_, ?_⟩
                  · rw [releaseChunks_eq hrel, AMap.get?_keep] at hg
                    split at hg
                    · exact hsave k ch hg
                    · cases hg
                  · intro z hz
                    simp only [Option.toList_some, List.mem_singleton] at hz
                    subst hz
                    exact Service.findChunks_keys (findChunks_get hf) hsave
        rcases List.mem_append.mp hy with hy | hy
        · exact hc1.2 y hy
        · exact serveAll_keys h2 hc1.1 y hy
      · cases h
      · cases h
    · cases h
    · cases h

namespace Flow
open Service (Prov SentBy)
variable {w : Wire} {ins : Nat → List InsertReq} {ask : Nat → List SampleReq} {got : Nat → List (String × Sampled)} {written : Nat → List Entry}

theorem step_sample {ι : Type} (F : Flow w ins ask got written)  (hc : ContentsOf w ins) {users : ι → Writer.Use} (hu : WrittenBy ins users)
    {q : Nat} {y : String × Sampled} (hy : y ∈ got q) :
    ∃ u steps smp, (users u).Asked y.1 steps ∧ asSampleLocal (y.2.sent w) = .ok smp ∧ smp.asTrajectory = .ok (stackSteps (users u).spec steps) ∧
      smp.asBatchedTimesteps = .ok (Int.ofNat steps.length, stackSteps (users u).spec steps) ∧
      ∀ c out s', ClientSampler.Reads c smp out s' → ClientSampler.GivesSteps c steps out ∧ (s'.isEndOfSample = true → out.length = steps.length) := by
  obtain ⟨⟨hval, s, r, hrm, it, g1, g2, g3, g4, g5⟩, _⟩ := F.prov q y hy
  obtain ⟨u, str, hstr, hpre⟩ := hu s
  obtain ⟨ms, mt, rfl, hms⟩ : ∃ ms mt, str = ms ++ mt ∧ ms.map Msg.toReq = ins s := by
    obtain ⟨tail, ht⟩ := hpre
    obtain ⟨l1, l2, e1, e2, e3⟩ := List.map_eq_append_iff.mp ht.symm
    exact ⟨l1, l2, e1, e2⟩
  obtain ⟨m, hm, rfl⟩ : ∃ m ∈ ms, m.toReq = r := by
    replace hrm : r ∈ ins s := hrm
    rw [← hms] at hrm
    exact List.mem_map.mp hrm
  obtain ⟨⟨wi, keep⟩, hmi, rfl⟩ : ∃ x, m.item = some x ∧ it = ⟨x.1.key, x.1.table, x.1.priority, 0, x.1.traj, x.2, true⟩ := by
    simp only [Msg.toReq, Option.map_eq_some_iff] at g1
    obtain ⟨x, e1, e2⟩ := g1
    exact ⟨x, e1, e2.symm⟩
  simp only at g2 g3 g4
  obtain ⟨cache, ins, hsv, hins⟩ := Writer.C42_partial (users u).new (users u).runs (users u).sound hstr .sync
  obtain ⟨c1, i1, i2, hs1, _, rfl⟩ := serveAll_split hsv
  have hwi : wi ∈ itemsOf ms := List.mem_filterMap.mpr ⟨m, hm, by rw [hmi]; rfl⟩
  have hin : ∃ chunks, (wi, chunks) ∈ i1 := by
    rw [← serveAll_items hs1] at hwi
    obtain ⟨⟨a, b⟩, e1, rfl⟩ := List.mem_map.mp hwi
    exact ⟨b, e1⟩
  obtain ⟨chunks, hin⟩ := hin
  obtain ⟨steps, hask, hsh⟩ := hins _ (List.mem_append_left _ hin)
  have hck : chunks = (y.2.sent w).chunks := by
    have hk1 : chunks.map ChunkData.key = getChunkKeys y.2.item.traj := by
      rw [← g4]
      exact serveAll_keys hs1 (by intro k ch h; cases h) _ hin
    have hk2 : (y.2.sent w).chunks = (getChunkKeys y.2.item.traj).map w.content := by
      rw [itemValid_keys hval]
      simp [Sampled.sent]
    rw [hk2, ← hk1, List.map_map]
    refine (List.map_id chunks).symm.trans (List.map_congr_left fun ch hch => ?_)
    rcases serveAll_sent hs1 _ hin ch hch with ⟨k, hk⟩ | ⟨m', hm', hch'⟩
    · cases hk
    · exact (hc s m'.toReq (by rw [← hms]; exact List.mem_map_of_mem hm') ch hch').symm
  have hfit : ∀ x ∈ steps, x.Of (users u).spec := by
    obtain ⟨pre, table, priority, as, post, w1, n, a1, a2, a3, a4, a5, a6, a7, a8⟩ := hask
    intro x hx
    rw [a8] at hx
    obtain ⟨as', h'⟩ := Writer.history_offered (List.mem_of_mem_drop hx)
    exact (users u).fits x as' (by rw [a1]; exact List.mem_append_left _ h')
  have htr : (y.2.sent w).traj = wi.traj := g4.symm
  have hvs := Sampled.sent_valid F.key hval
  have hne : (users u).spec ≠ [] := by
    intro h0
    have h1 : wi.traj.length = 0 := by rw [hsh.1, h0]; rfl
    have h2 : y.2.item.traj = [] := by rw [← g4]; exact List.length_eq_zero_iff.mp h1
    simp [Table.itemValid, h2] at hval
  have hst : steps ≠ [] := by
    obtain ⟨_, parts, rfl, h3, h4⟩ := hsh
    intro h0
    have hp0 : parts = [] := by
      cases parts with
      | nil => rfl
      | cons p ps =>
        simp only [List.flatten_cons, List.append_eq_nil_iff] at h0
        exact absurd h0.1 (h3 p List.mem_cons_self)
    subst hp0
    simp only [Table.itemValid, Bool.and_eq_true] at hval
    rw [← g4] at hval
    cases ht : wi.traj with
    | nil => simp [ht] at hval
    | cons col cols =>
      have h5 := (h4 0 col (by simp only; rw [ht]; rfl)).2.1
      have h6 : col.slices = [] := List.length_eq_zero_iff.mp h5
      simp [ht, h6] at hval
  obtain ⟨smp, e1, e2, e3, e4, out, s', e5, e6, e7, e8⟩ := ShowsSteps.sample (s := y.2.sent w) hvs hne hst (by rw [htr, ← hck]; exact hsh) hfit
  exact ⟨u, steps, smp, ⟨wi, g2, hask⟩, e1, e2, e3, fun c o s'' hrd =>
    ⟨(hrd.gives e5 e6 e4 e7 e8).1, (hrd.gives e5 e6 e4 e7 e8).2.2⟩⟩

/-- A sample in the queue of the sampler was taken from its table. -/
theorem arrived_from (F : Flow w ins ask got written)  {c : SamplerCfg} (hcv : c.Valid) {t : String} {a b : Int}
    (hsrc : c.source = .grpc t a b) {now : Int} {cev : List ClientSampler.Event} {u : ClientSampler} {L : Links}
    (hl : ClientSampler.Linked c now written cev u L) (hask : ∀ q ∈ L.opened, ∀ r ∈ ask q, r ∈ u.sent) {x : Sample} (hx : x ∈ u.arrived) :
    ∃ q y, y ∈ got q ∧ y.1 = t ∧ asSampleLocal (y.2.sent w) = .ok x := by
  have hreach : ClientSampler.Reach c now (fun _ _ => True) cev u := hl.reach fun _ _ _ => trivial
  obtain ⟨_, hperm, hpre⟩ := F.sampler hsrc hl
  obtain ⟨q, hq, hqx⟩ := List.mem_flatMap.mp (hperm.subset hx)
  have hmem : Res.ok x ∈ localSamples w (got q) := (hpre q).subset (List.mem_map_of_mem hqx)
  obtain ⟨y, hy, hys⟩ := List.mem_map.mp hmem
  obtain ⟨r, hrq, hrt⟩ := (F.prov q y hy).2
  obtain ⟨t', _, _, e1, e2, _⟩ := C45_request_size hcv hreach (hask q hq r hrq)
  rw [hsrc] at e1
  cases e1
  exact ⟨q, y, hy, by rw [← hrt, e2], hys⟩

theorem step_samples {ι : Type} (F : Flow w ins ask got written)  (hc : ContentsOf w ins) {users : ι → Writer.Use} (hu : WrittenBy ins users)
    {c : SamplerCfg} (hcv : c.Valid) {t : String} {a b : Int} (hsrc : c.source = .grpc t a b) {now : Int} {cev : List ClientSampler.Event}
    {s : ClientSampler} {L : Links} (hl : ClientSampler.Linked c now written cev s L) (hnt : ∀ e ∈ cev, ClientSampler.NoTimesteps e)
    (hask : ∀ q ∈ L.opened, ∀ r ∈ ask q, r ∈ s.sent) {o : SampleOut} (ho : o ∈ s.log) :
    (∃ u steps, (users u).Asked t steps ∧ (o = .trajectory (stackSteps (users u).spec steps) ∨
      o = .batched (Int.ofNat steps.length) (stackSteps (users u).spec steps))) ∨ ∃ e, o = .error e := by
  have hreach : ClientSampler.Reach c now (fun _ e => ClientSampler.NoTimesteps e) cev s := hl.reach fun _ e he => hnt e he
  obtain ⟨taken, done, h1, h2, h3⟩ := C69_once hreach
  have hacc : ∀ {done : List (SampleCall × Sample)} {log : List SampleOut}, ClientSampler.Accounts c done log → o ∈ log →
      (∃ x ∈ done, x.1.outcome c x.2 = .ok o) ∨ ∃ e, o = .error e := by
    intro done log hA
    induction hA with
    | nil => intro h; simp at h
    | @sample done log k s o _ hk ih =>
      intro h
      rcases List.mem_append.mp h with h | h
      · rcases ih h with ⟨x, g1, g2⟩ | g
        · exact .inl ⟨x, List.mem_append_left _ g1, g2⟩
        · exact .inr g
      · simp only [List.mem_singleton] at h
        subst h
        exact .inl ⟨(k, s), by simp, hk⟩
    | other st _ ih =>
      intro h
      rcases List.mem_append.mp h with h | h
      · exact ih h
      · simp only [List.mem_singleton] at h
        exact .inr ⟨st, h⟩
  rcases hacc h2 ho with ⟨x, hx, hxo⟩ | g
  · have harr : x.2 ∈ s.arrived := by
      rw [h1]
      exact List.mem_append_left _ (h3.symm.subset (List.mem_append_left _ (List.mem_map_of_mem hx)))
    obtain ⟨q, y, hy, rfl, hys⟩ := F.arrived_from hcv hsrc hl hask harr
    obtain ⟨u, steps, smp, e1, e2, e3, e4, _⟩ := F.step_sample hc hu hy
    rw [hys] at e2
    cases e2
    obtain ⟨k, smp⟩ := x
    cases k with
    | timestep => cases hxo
    | batched =>
      simp only [SampleCall.outcome, e4] at hxo
      split at hxo
      · cases hxo; exact .inr ⟨_, rfl⟩
      · cases hxo; exact .inl ⟨u, steps, e1, .inr rfl⟩
    | trajectory =>
      simp only [SampleCall.outcome, e3] at hxo
      split at hxo
      · cases hxo; exact .inr ⟨_, rfl⟩
      · cases hxo; exact .inl ⟨u, steps, e1, .inl rfl⟩
  · exact .inr g

theorem timesteps {ι : Type} (F : Flow w ins ask got written)  (hc : ContentsOf w ins) {users : ι → Writer.Use} (hu : WrittenBy ins users)
    {c : SamplerCfg} (hcv : c.Valid) {t : String} {a b : Int} (hsrc : c.source = .grpc t a b) {now : Int} {cev : List ClientSampler.Event}
    {s : ClientSampler} {L : Links} (hl : ClientSampler.Linked c now written cev s L)
    (hrch : ClientSampler.Reach c now (fun v e => ClientSampler.Faithful v e ∧ ClientSampler.OnlyTimesteps e) cev s)
    (hask : ∀ q ∈ L.opened, ∀ r ∈ ask q, r ∈ s.sent) :
    ∃ out rest, s.log = out ++ rest ∧ ClientSampler.StepLog c (fun steps => ∃ u, (users u).Asked t steps) out ∧
      (rest = [] ∨ ∃ u steps, (users u).Asked t steps ∧ ClientSampler.GivesSteps c steps rest) := by
  have hall : ∀ x ∈ s.arrived, ∃ steps, (∃ u, (users u).Asked t steps) ∧
      ∀ o s', ClientSampler.Reads c x o s' → ClientSampler.GivesSteps c steps o ∧ (s'.isEndOfSample = true → o.length = steps.length) := by
    intro x hx
    obtain ⟨q, y, hy, rfl, hys⟩ := F.arrived_from hcv hsrc hl hask hx
    obtain ⟨u, steps, smp, e1, e2, _, _, e3⟩ := F.step_sample hc hu hy
    rw [hys] at e2
    cases e2
    exact ⟨steps, ⟨u, e1⟩, e3 c⟩
  obtain ⟨done, out, h1, h2⟩ := C69_timesteps hcv hrch
  rcases h2 with ⟨h2, h3⟩ | ⟨x, steps, s', h2, h3, h4, _⟩
  · exact ⟨out, [], by simp [h3], h1.log fun x hx => hall x (by rw [h2]; exact List.mem_append_left _ hx), .inl rfl⟩
  · refine ⟨out, steps, h3, h1.log fun x hx => hall x (by rw [h2]; simp [hx]), .inr ?_⟩
    obtain ⟨st, ⟨u, g1⟩, g2⟩ := hall x (by rw [h2]; simp)
    exact ⟨u, st, g1, (g2 _ _ h4).1⟩

end Flow
end Verif
