import Verif.Proofs.PySample
import Verif.Props.C100_Steps
import Verif.Model.ClientOps
/-
C102: what `Client.sample` in Python yields.
-/
namespace Verif

/-! ### One trajectory -/

/-- C102 (partial): a trajectory without squeezed columns whose columns have the same number of rows comes as the list of its steps: the `k`-th one has the
`k`-th row of each column. If the columns have different numbers of rows, there is a `ValueError`. Missing: squeezed columns (`C102_timesteps_is_false`). -/
theorem C102_timesteps_partial {α : Type} {s : SampledItem} {cols : List RowColumn} (h : s.Has cols) (hq : ∀ col ∈ s.traj, col.squeeze = false) :
    ∃ smp x, asSampleLocal s = .ok smp ∧ smp.fetch = .ok x ∧
      ((∀ c ∈ cols, ∀ c' ∈ cols, c.rows.length = c'.rows.length) →
        ∃ l, sampleItem true (none : Option (PTree α)) x = .ok (.steps l) ∧ StepsOf s.info cols l) ∧
      ((∃ c ∈ cols, ∃ c' ∈ cols, c.rows.length ≠ c'.rows.length) → ∀ sig : Option (PTree α), sampleItem true sig x = .raised .valueError) := by
  obtain ⟨smp, h1, h2⟩ := h.fetch_plain hq
  refine ⟨smp, _, h1, h2, fun hall => ?_, fun hw sig => sampleItem_wrong hw⟩
  obtain ⟨c0, hc0⟩ := List.exists_mem_of_ne_nil _ h.ne
  have hrow : ∀ k, k < c0.rows.length → ∃ row, pyRow k (arraysOf cols) = some row ∧ RowsAt cols k row := fun k hk =>
    pyRow_arrays (fun c hc => (h.columns c hc).1) fun c hc => by rw [hall c hc c0 hc0]; exact hk
  obtain ⟨l, g1, g2, g3⟩ := pySteps_ok (sig := (none : Option (PTree α))) (info := s.info.py) (data := arraysOf cols) (n := c0.rows.length) (i := 0) (by
    intro k _ hk
    obtain ⟨row, e1, _⟩ := hrow k (by omega)
    exact ⟨row, _, e1, rfl⟩)
  refine ⟨l, sampleItem_steps ?_ ?_ g1, fun c hc => by rw [g2]; exact hall c hc c0 hc0, fun k st hk => ?_⟩
  · simpa [arraysOf] using h.ne
  · intro t ht
    obtain ⟨c, hc, rfl⟩ := List.mem_map.mp ht
    rw [← hall c hc c0 hc0]
    rfl
  · obtain ⟨e1, row, e2, e3⟩ := g3 k st hk
    have hlt : k < c0.rows.length := by rw [← g2]; exact (List.getElem?_eq_some_iff.mp hk).1
    obtain ⟨row', f1, f2⟩ := hrow k hlt
    rw [Nat.zero_add, f1] at e2
    cases e2
    exact ⟨e1, row, (Option.some.inj e3).symm, f2⟩

/-- C102 (partial): with the signature of the table, the arrays of each step stand where the signature has its leaves. If the trajectory does not have as many columns as the
signature has leaves, there is a `ValueError`. (An empty signature counts as none.) -/
theorem C102_signature_partial {α : Type} {s : SampledItem} {cols : List RowColumn} (h : s.Has cols) (hq : ∀ col ∈ s.traj, col.squeeze = false)
    (hall : ∀ c ∈ cols, ∀ c' ∈ cols, c.rows.length = c'.rows.length) {sig : PTree α} (hs : sig.WF) (ht : sig.truthy = true) :
    ∃ smp x, asSampleLocal s = .ok smp ∧ smp.fetch = .ok x ∧
      if cols.length = sig.flattenWithPath.length then ∃ l, sampleItem true (some sig) x = .ok (.steps l) ∧ NestedStepsOf sig s.info cols l
      else sampleItem true (some sig) x = .raised .valueError := by
  obtain ⟨smp, h1, h2⟩ := h.fetch_plain hq
  refine ⟨smp, _, h1, h2, ?_⟩
  obtain ⟨c0, hc0⟩ := List.exists_mem_of_ne_nil _ h.ne
  have hrow : ∀ k, k < c0.rows.length → ∃ row, pyRow k (arraysOf cols) = some row ∧ RowsAt cols k row := fun k hk =>
    pyRow_arrays (fun c hc => (h.columns c hc).1) fun c hc => by rw [hall c hc c0 hc0]; exact hk
  have hlen : ∀ {k row}, RowsAt cols k row → row.length = cols.length := fun hr => by simpa using congrArg List.length hr
  have hne : arraysOf cols ≠ [] := by simpa [arraysOf] using h.ne
  have hhead : ∀ t ∈ arraysOf cols, t.shape.head? = some c0.rows.length := by
    intro t ht
    obtain ⟨c, hc, rfl⟩ := List.mem_map.mp ht
    rw [← hall c hc c0 hc0]
    rfl
  split
  · rename_i heq
    obtain ⟨l, g1, g2, g3⟩ := pySteps_ok (sig := some sig) (info := s.info.py) (data := arraysOf cols) (n := c0.rows.length) (i := 0) (by
      intro k _ hk
      obtain ⟨row, e1, e2⟩ := hrow k (by omega)
      obtain ⟨t, e3, _⟩ := PTree.unflatten_ok hs (flat := row) (by rw [hlen e2, heq])
      exact ⟨row, .nested t, e1, by simp only [unflattenData, ht, if_true, e3, Option.map_some]⟩)
    refine ⟨l, sampleItem_steps hne hhead g1, fun c hc => by rw [g2]; exact hall c hc c0 hc0, fun k st hk => ?_⟩
    obtain ⟨e1, row, e2, e3⟩ := g3 k st hk
    have hlt : k < c0.rows.length := by rw [← g2]; exact (List.getElem?_eq_some_iff.mp hk).1
    obtain ⟨row', f1, f2⟩ := hrow k hlt
    rw [Nat.zero_add, f1] at e2
    cases e2
    obtain ⟨t, f3, f4⟩ := PTree.unflatten_ok hs (flat := row) (by rw [hlen f2, heq])
    simp only [unflattenData, ht, if_true, f3, Option.map_some, Option.some.injEq] at e3
    exact ⟨e1, row, ⟨t, e3.symm, f4⟩, f2⟩
  · rename_i hneq
    have hpos : 0 < c0.rows.length := by
      obtain ⟨v1, v2⟩ := h.columns c0 hc0
      obtain ⟨ch, hch⟩ := List.exists_mem_of_ne_nil _ v2
      obtain ⟨r, hr⟩ := List.exists_mem_of_ne_nil _ (v1.chunks ch hch)
      exact List.length_pos_of_mem (List.mem_flatten.mpr ⟨ch, hch, hr⟩)
    obtain ⟨m, hm⟩ : ∃ m, c0.rows.length = m + 1 := ⟨c0.rows.length - 1, by omega⟩
    obtain ⟨row, e1, e2⟩ := hrow 0 hpos
    have hnone : sig.unflattenAs row = none := PTree.unflatten_none (by rw [hlen e2]; exact hneq)
    have hsteps : pySteps (some sig) s.info.py (arraysOf cols) 0 c0.rows.length = .raised .valueError := by
      rw [hm]
      simp only [pySteps, e1, unflattenData, ht, if_true, hnone, Option.map_none]
    obtain ⟨c1, rest, rfl⟩ := List.exists_cons_of_ne_nil h.ne
    have hno : notOne ((c1 :: rest).map fun c => c.rows.length) = false := by
      rw [List.map_cons, notOne_cons]
      intro x hx
      obtain ⟨c, hc, rfl⟩ := List.mem_map.mp hx
      exact hall _ (List.mem_cons_of_mem _ hc) _ List.mem_cons_self
    simp only [sampleItem, if_true, pyLens_arrays, hno, Bool.false_eq_true, if_false]
    rw [List.map_cons, List.headD_cons, hall c1 List.mem_cons_self c0 hc0, hsteps]

/-- C102: with `emit_timesteps=False` any trajectory comes as it is, in the structure of the signature if there is one; squeezed columns are then single rows. There is a
`ValueError` if the numbers of columns and leaves differ. -/
theorem C102_whole {α : Type} {s : SampledItem} {cols : List RowColumn} (h : s.Has cols) :
    ∃ smp x, asSampleLocal s = .ok smp ∧ smp.fetch = .ok x ∧ x.1 = s.info.py ∧ x.2.length = cols.length ∧
      (∀ (i : Nat) (col : Column) (c : RowColumn) (t : Tensor), s.traj[i]? = some col → cols[i]? = some c → x.2[i]? = some t →
        if col.squeeze then c.rows = [t] else t = Tensor.stack c.dtype c.shape c.rows) ∧
      sampleItem false (none : Option (PTree α)) x = .ok (.whole ⟨s.info.py, .flat x.2⟩) ∧
      ∀ sig : PTree α, sig.WF → sig.truthy = true →
        if cols.length = sig.flattenWithPath.length then ∃ d, sampleItem false (some sig) x = .ok (.whole ⟨s.info.py, d⟩) ∧ Unpacked sig x.2 d
        else sampleItem false (some sig) x = .raised .valueError := by
  obtain ⟨smp, out, h1, h2, h3, h4⟩ := h.fetch
  refine ⟨smp, _, h1, h2, rfl, h3, h4, by simp [sampleItem, unflattenData], fun sig hs ht => ?_⟩
  split
  · rename_i heq
    obtain ⟨t, e1, e2⟩ := PTree.unflatten_ok hs (flat := out) (by rw [h3, heq])
    exact ⟨.nested t, by simp [sampleItem, unflattenData, ht, e1], t, rfl, e2⟩
  · rename_i hne
    have := PTree.unflatten_none (s := sig) (flat := out) (by rw [h3]; exact hne)
    simp [sampleItem, unflattenData, ht, this]

/-! ### Squeezed columns -/

/-- C102: a squeezed column of scalars raises a `TypeError`, whatever else is in the trajectory. -/
theorem C102_squeezed_scalar {α : Type} {s : SampledItem} {cols : List RowColumn} (h : s.Has cols) {i : Nat} {col : Column} {c : RowColumn}
    (hi : s.traj[i]? = some col) (hc : cols[i]? = some c) (hq : col.squeeze = true) (hsh : c.shape = []) (sig : Option (PTree α)) :
    ∃ smp x, asSampleLocal s = .ok smp ∧ smp.fetch = .ok x ∧ sampleItem true sig x = .raised .typeError := by
  obtain ⟨smp, out, h1, h2, h3, h4⟩ := h.fetch
  refine ⟨smp, _, h1, h2, ?_⟩
  have hlt : i < out.length := by rw [h3]; exact (List.getElem?_eq_some_iff.mp hc).1
  have hrow := h4 i col c out[i] hi hc (List.getElem?_eq_getElem hlt)
  rw [hq, if_pos rfl] at hrow
  have hm : out[i] ∈ c.rows := by rw [hrow]; exact List.mem_singleton.mpr rfl
  have hsc := ((h.columns c (List.mem_of_getElem? hc)).1.rows _ hm).2.2
  have hnone : pyLens out = none := pyLens_none.mpr ⟨out[i], List.getElem_mem hlt, by rw [hsc, hsh]⟩
  simp only [sampleItem, if_true, hnone]

/-- C102: if all columns are squeezed and the arrays have `n` as their first dimension, one step comes as a list of `n` steps. -/
theorem C102_squeezed_axis {α : Type} {s : SampledItem} {cols : List RowColumn} (h : s.Has cols) (hq : ∀ col ∈ s.traj, col.squeeze = true) {n : Nat}
    (hsh : ∀ c ∈ cols, ∃ rest, c.shape = n :: rest) :
    (∀ c ∈ cols, c.rows.length = 1) ∧
    ∃ smp x l, asSampleLocal s = .ok smp ∧ smp.fetch = .ok x ∧ sampleItem true (none : Option (PTree α)) x = .ok (.steps l) ∧ l.length = n := by
  obtain ⟨smp, out, h1, h2, h3, h4⟩ := h.fetch
  have hshape : ∀ t ∈ out, ∃ rest, t.shape = n :: rest := by
    intro t ht
    obtain ⟨i, hi⟩ := List.getElem?_of_mem ht
    have hlt : i < cols.length := by rw [← h3]; exact (List.getElem?_eq_some_iff.mp hi).1
    have hl2 : i < s.traj.length := by rw [h.shows.1]; exact hlt
    have hrow := h4 i _ _ t (List.getElem?_eq_getElem hl2) (List.getElem?_eq_getElem hlt) hi
    rw [hq _ (List.getElem_mem hl2), if_pos rfl] at hrow
    have hsc := ((h.columns _ (List.getElem_mem hlt)).1.rows t (by rw [hrow]; exact List.mem_singleton.mpr rfl)).2.2
    rw [hsc]
    exact hsh _ (List.getElem_mem hlt)
  refine ⟨fun c hc => ?_, ?_⟩
  · obtain ⟨i, hi⟩ := List.getElem?_of_mem hc
    have hl2 : i < s.traj.length := by rw [h.shows.1]; exact (List.getElem?_eq_some_iff.mp hi).1
    exact h.squeezed i _ c (List.getElem?_eq_getElem hl2) hi (hq _ (List.getElem_mem hl2))
  · obtain ⟨l, g1, g2, _⟩ := pySteps_ok (sig := (none : Option (PTree α))) (info := s.info.py) (data := out) (n := n) (i := 0) (by
      intro k _ hk
      obtain ⟨row, e1, _⟩ := pyRow_some (ts := out) (k := k) (by
        intro t ht
        obtain ⟨rest, hr⟩ := hshape t ht
        rw [Tensor.subSlice, hr]
        dsimp only
        rw [if_pos (by omega)]
        exact ⟨_, rfl⟩)
      exact ⟨row, _, e1, rfl⟩)
    refine ⟨smp, _, l, h1, h2, sampleItem_steps ?_ ?_ g1, g2⟩
    · intro h0
      rw [h0] at h3
      exact h.ne (List.length_eq_zero_iff.mp h3.symm)
    · intro t ht
      obtain ⟨rest, hr⟩ := hshape t ht
      rw [hr]
      rfl

/-! ### The generator -/

/-- C102: the generator yields what it makes of the trajectories, one for each in their order. It ends after `num_samples`, or with the first error of the
sampler or of the conversion, or waits for the next trajectory. -/
theorem C102_generator {α : Type} (emit : Bool) (sig : Option (PTree α)) (n : Int) (fetched : List (Res (PyInfo × List Tensor))) :
    let out := clientSample emit sig n fetched
    (∀ (k : Nat) (y : PyYield), out.1[k]? = some y → ∃ x, fetched[k]? = some (.ok x) ∧ sampleItem emit sig x = .ok y) ∧
    match out.2 with
    | .finished => out.1.length = n.toNat
    | .waiting => out.1.length < n.toNat ∧ out.1.length = fetched.length
    | .raised e => out.1.length < n.toNat ∧ ((∃ c, fetched[out.1.length]? = some (.err c) ∧ e = .status c) ∨
        ∃ x, fetched[out.1.length]? = some (.ok x) ∧ sampleItem emit sig x = .raised e)
    | .died => out.1.length < n.toNat ∧ fetched[out.1.length]? = some .died := by
  have nodeath : ∀ x, sampleItem emit sig x ≠ .died := by
    intro x h
    have hst : ∀ (m i : Nat), pySteps sig x.1 x.2 i m ≠ .died := by
      intro m
      induction m with
      | zero => intro i h; cases h
      | succ m ih =>
        intro i h
        simp only [pySteps] at h
        repeat' split at h
        all_goals try cases h
        exact ih _ (by assumption)
    simp only [sampleItem] at h
    repeat' split at h
    all_goals try cases h
    exact hst _ _ (by assumption)
  intro out
  have key : ∀ (m : Nat) (fs : List (Res (PyInfo × List Tensor))), let out := sampleLoop emit sig m fs
      (∀ (k : Nat) (y : PyYield), out.1[k]? = some y → ∃ x, fs[k]? = some (.ok x) ∧ sampleItem emit sig x = .ok y) ∧
      match out.2 with
      | .finished => out.1.length = m
      | .waiting => out.1.length < m ∧ out.1.length = fs.length
      | .raised e => out.1.length < m ∧ ((∃ c, fs[out.1.length]? = some (.err c) ∧ e = .status c) ∨
          ∃ x, fs[out.1.length]? = some (.ok x) ∧ sampleItem emit sig x = .raised e)
      | .died => out.1.length < m ∧ fs[out.1.length]? = some .died := by
    intro m
    induction m with
    | zero => intro fs; simp [sampleLoop]
    | succ m ih =>
      intro fs
      cases fs with
      | nil => simp [sampleLoop]
      | cons r rs =>
        cases r with
        | err c => simp [sampleLoop]
        | died => simp [sampleLoop]
        | ok x =>
          cases hx : sampleItem emit sig x with
          | died => exact absurd hx (nodeath x)
          | raised e => simp [sampleLoop, hx]
          | ok y =>
            obtain ⟨h1, h2⟩ := ih rs
            simp only [sampleLoop, hx]
            refine ⟨fun k z hk => ?_, ?_⟩
            · cases k with
              | zero => cases hk; exact ⟨x, rfl, hx⟩
              | succ k => exact h1 k z hk
            · cases he : (sampleLoop emit sig m rs).2 with
              | finished => rw [he] at h2; simp only [List.length_cons] at h2 ⊢; omega
              | waiting => rw [he] at h2; simp only [List.length_cons] at h2 ⊢; omega
              | raised e =>
                rw [he] at h2
                simp only [List.length_cons, List.getElem?_cons_succ] at h2 ⊢
                exact ⟨by omega, h2.2⟩
              | died =>
                rw [he] at h2
                simp only [List.length_cons, List.getElem?_cons_succ] at h2 ⊢
                exact ⟨by omega, h2.2⟩
  exact key n.toNat fetched

/-! ### From the writer to the generator -/

theorem asSampleLocal_info {s : SampledItem} {smp : Sample} (h : asSampleLocal s = .ok smp) : smp.info = s.info := by
  unfold asSampleLocal at h
  split at h
  · cases h
  · cases h
  · unfold Sample.new at h
    split at h
    · cases h
    · cases h
    · dsimp only at h
      split at h
      · cases h
      · cases h; rfl
      · split at h
        · cases h
        · cases h; rfl

/-- What is made of steps that stand one on the other. -/
theorem sampleItem_stackSteps {α : Type} {spec : StepSpec} (hne : spec ≠ []) {steps : List Timestep} (hfit : ∀ x ∈ steps, x.Of spec) (info : PyInfo) :
    sampleItem true (none : Option (PTree α)) (info, stackSteps spec steps) = .ok (.steps (steps.map fun st => ⟨info, .flat st⟩)) := by
  have hstack : stackSteps spec steps = arraysOf (columnsOf spec [steps]) := by
    apply List.ext_getElem?
    intro i
    simp only [columnsOf, stackSteps, arraysOf, List.getElem?_map, List.getElem?_mapIdx, Option.map_map]
    cases spec[i]? with
    | none => rfl
    | some x => simp [RowColumn.rows]
  have hrows : ∀ c ∈ columnsOf spec [steps], (∀ t ∈ c.rows, Tensor.Is c.dtype c.shape t) ∧ c.rows.length = steps.length := by
    intro c hc
    obtain ⟨i, x, hx, rfl⟩ := mem_columnsOf hc
    rw [rows_columnsOf]
    simp only [List.flatten_cons, List.flatten_nil, List.append_nil]
    exact ⟨(pick_map hfit hx).2, pick_length hfit hx⟩
  have hget : ∀ k (hk : k < steps.length), pyRow k (stackSteps spec steps) = some steps[k] := by
    intro k hk
    obtain ⟨row, e1, e2⟩ := pyRow_some (ts := stackSteps spec steps) (k := k) (by
      rw [hstack]
      intro t ht
      obtain ⟨c, hc, rfl⟩ := List.mem_map.mp ht
      exact ⟨_, Tensor.subSlice_stack (hrows c hc).1 (by rw [(hrows c hc).2]; exact hk)⟩)
    rw [e1]
    congr 1
    have hof := hfit _ (List.getElem_mem hk)
    apply List.ext_getElem?
    intro i
    have hi := congrArg (fun l => l[i]?) e2
    simp only [List.getElem?_map, stackSteps, List.getElem?_mapIdx, Option.map_map] at hi
    cases hx : spec[i]? with
    | none =>
      rw [hx] at hi
      rw [List.getElem?_eq_none (l := steps[k]) (by rw [hof.1]; exact List.getElem?_eq_none_iff.mp hx)]
      cases hr : row[i]? with
      | none => rfl
      | some r => rw [hr] at hi; cases hi
    | some x =>
      obtain ⟨t, ht, _⟩ := hof.get hx
      rw [hx] at hi
      have hl := pick_length hfit hx
      have hsub := Tensor.subSlice_stack (pick_map hfit hx).2 (i := k) (by rw [hl]; exact hk)
      simp only [Option.map_some, Function.comp_apply, hsub] at hi
      have hp := congrArg (fun l => l[k]?) (pick_map hfit hx).1
      simp only [List.getElem?_map, List.getElem?_eq_getElem hk, Option.map_some, ht, List.getElem?_eq_getElem (show k < (steps.filterMap (·[i]?)).length by rw [hl]; exact hk),
        Option.some.injEq] at hp
      cases hr : row[i]? with
      | none => rw [hr] at hi; cases hi
      | some r =>
        rw [hr] at hi
        simp only [Option.map_some, Option.some.injEq, Res.ok.injEq] at hi
        rw [ht, hi, hp]
  obtain ⟨l, g1, g2, g3⟩ := pySteps_ok (sig := (none : Option (PTree α))) (info := info) (data := stackSteps spec steps) (n := steps.length) (i := 0) (by
    intro k _ hk
    exact ⟨_, _, hget k (by omega), rfl⟩)
  have hl : l = steps.map fun st => ⟨info, .flat st⟩ := by
    apply List.ext_getElem?
    intro k
    rw [List.getElem?_map]
    by_cases hk : k < steps.length
    · obtain ⟨e1, row, e2, e3⟩ := g3 k l[k] (List.getElem?_eq_getElem (by omega))
      rw [Nat.zero_add, hget k hk] at e2
      cases e2
      rw [List.getElem?_eq_getElem (by omega), List.getElem?_eq_getElem hk, Option.map_some]
      congr 1
      rw [← e1]
      simp only [unflattenData, Option.some.injEq] at e3
      rw [e3]
    · rw [List.getElem?_eq_none (by omega), List.getElem?_eq_none (by omega)]
      rfl
  subst hl
  apply sampleItem_steps _ _ g1
  · intro h0
    have := congrArg List.length h0
    simp only [stackSteps, List.length_mapIdx, List.length_nil] at this
    exact hne (List.length_eq_zero_iff.mp this)
  · rw [hstack]
    intro t ht
    obtain ⟨c, hc, rfl⟩ := List.mem_map.mp ht
    rw [← (hrows c hc).2]
    rfl

theorem Writer.Use.asked_fits {u : Writer.Use} {table : String} {steps : List Timestep} (h : u.Asked table steps) : ∀ x ∈ steps, x.Of u.spec := by
  obtain ⟨it, _, pre, _, _, as, post, w1, n, a1, a2, a3, a4, a5, a6, a7, a8⟩ := h
  intro x hx
  rw [a8] at hx
  obtain ⟨as', h'⟩ := Writer.history_offered (List.mem_of_mem_drop hx)
  exact u.fits x as' (by rw [a1]; exact List.mem_append_left _ h')

/-- What Python gets from a call of `GetNextTrajectory` whose output is this. -/
def SampleOut.Fetched (o : SampleOut) (r : Res (PyInfo × List Tensor)) : Prop :=
  match o with
  | .trajectory data => ∃ info, r = .ok (info, data)
  | .error c => r = .err c
  | _ => False

/-- The steps that were asked for come as one list, with one `info` for all. -/
def PyYield.IsSteps (y : PyYield) (steps : List Timestep) : Prop := ∃ info, y = .steps (steps.map fun st => ⟨info, .flat st⟩)

/-- C102 (partial), from old writers through the server to `Client.sample`: let the results of `GetNextTrajectory` be what the sampler has returned so far. Then each list that the
generator yields consists of the last steps that had been appended to one of the writers when it was asked for an item in this table. It ends by an exception only
if `GetNextTrajectory` returns an error. Missing: as in C100. -/
theorem Service.C102_written_partial {α ι : Type} {w : Wire} (hw : ∀ k, (w.content k).key = k) {cfgs : AMap String Config} {evs : List Event} {v : Service}
    (hr : (Service.init (newTables cfgs)).run w evs = some v) (hc : Contents w evs) {users : ι → Writer.Use} (hu : FromWriters evs users)
    (hspec : ∀ u, (users u).spec ≠ []) {c : SamplerCfg} (hcv : c.Valid) {t : String} {a b : Int} (hsrc : c.source = .grpc t a b) {now : Int}
    {cev : List ClientSampler.Event} {s : ClientSampler} {L : Links} (hl : ClientSampler.Linked c now v.written cev s L)
    (hnt : ∀ e ∈ cev, ClientSampler.NoTimesteps e) (hask : ∀ q ∈ L.opened, ∀ r ∈ sampleRequests q evs, r ∈ s.sent)
    {fetched : List (Res (PyInfo × List Tensor))} (hlen : fetched.length = s.log.length)
    (hf : ∀ (k : Nat) (o : SampleOut) (r : Res (PyInfo × List Tensor)), s.log[k]? = some o → fetched[k]? = some r → o.Fetched r) (n : Int) :
    (∀ y ∈ (clientSample true (none : Option (PTree α)) n fetched).1, ∃ u steps, (users u).Asked t steps ∧ y.IsSteps steps) ∧
    ∀ e, (clientSample true (none : Option (PTree α)) n fetched).2 = .raised e → ∃ code, e = .status code ∧ .error code ∈ s.log := by
  have hfacts : ∀ (k : Nat) (r : Res (PyInfo × List Tensor)), fetched[k]? = some r →
      (∃ info u steps, (users u).Asked t steps ∧ r = .ok (info, stackSteps (users u).spec steps)) ∨ ∃ e, r = .err e ∧ .error e ∈ s.log := by
    intro k r hk
    have hlt : k < s.log.length := by rw [← hlen]; exact (List.getElem?_eq_some_iff.mp hk).1
    have hfk := hf k _ r (List.getElem?_eq_getElem hlt) hk
    have hm := List.getElem_mem hlt
    rcases C100_samples_partial hw hr hc hu hcv hsrc hl hnt hask hm with ⟨u, steps, h1, h2 | h2⟩ | ⟨e, h2⟩
    · rw [h2] at hfk
      obtain ⟨info, rfl⟩ := hfk
      exact .inl ⟨info, u, steps, h1, rfl⟩
    · rw [h2] at hfk
      exact absurd hfk id
    · rw [h2] at hfk hm
      exact .inr ⟨e, hfk, hm⟩
  have hok : ∀ (k : Nat) (x : PyInfo × List Tensor), fetched[k]? = some (.ok x) →
      ∃ u steps, (users u).Asked t steps ∧ sampleItem true (none : Option (PTree α)) x = .ok (.steps (steps.map fun st => ⟨x.1, .flat st⟩)) := by
    intro k x hk
    rcases hfacts k _ hk with ⟨info, u, steps, h1, h2⟩ | ⟨e, h2, _⟩
    · cases h2
      exact ⟨u, steps, h1, sampleItem_stackSteps (hspec u) (Writer.Use.asked_fits h1) info⟩
    · cases h2
  obtain ⟨g1, g2⟩ := C102_generator true (none : Option (PTree α)) n fetched
  constructor
  · intro y hy
    obtain ⟨k, hk⟩ := List.getElem?_of_mem hy
    obtain ⟨x, e1, e2⟩ := g1 k y hk
    obtain ⟨u, steps, e3, e4⟩ := hok k x e1
    rw [e2] at e4
    cases e4
    exact ⟨u, steps, e3, x.1, rfl⟩
  · intro e he
    rw [he] at g2
    rcases g2.2 with ⟨code, e1, e2⟩ | ⟨x, e1, e2⟩
    · rcases hfacts _ _ e1 with ⟨_, _, _, _, h2⟩ | ⟨e', h2, h3⟩
      · cases h2
      · cases h2
        exact ⟨code, e2, h3⟩
    · obtain ⟨u, steps, _, e4⟩ := hok _ x e1
      rw [e2] at e4
      cases e4

/-! ### `Client.insert` -/

theorem Writer.history_single {data : Timestep} : ∀ {evs : List Writer.Event} {w : Writer} {rest : List Writer.Call},
    evs.map Prod.fst <+: .append data :: rest → (∀ c ∈ rest, c.offered = []) → w.history evs = [] ∨ w.history evs = [data] := by
  have none : ∀ {evs : List Writer.Event} {w : Writer}, (∀ e ∈ evs, e.1.offered = []) → w.history evs = [] := by
    intro evs
    induction evs with
    | nil => intros; rfl
    | cons e evs ih =>
      intro w h
      obtain ⟨c, as⟩ := e
      have h0 := h _ List.mem_cons_self
      rw [Writer.history, ih fun e he => h e (List.mem_cons_of_mem _ he), List.append_nil]
      cases c with
      | append d => cases h0
      | _ => rfl
  intro evs w rest h hr
  cases evs with
  | nil => exact .inl rfl
  | cons e evs =>
    obtain ⟨c, as⟩ := e
    rw [List.map_cons, List.cons_prefix_cons] at h
    obtain ⟨h1, h2⟩ := h
    dsimp only at h1
    subst h1
    rw [Writer.history, none fun e he => hr _ (h2.subset (List.mem_map_of_mem he)), List.append_nil, Writer.appended]
    split
    · exact .inr rfl
    · exact .inl rfl

/-- C102: if the writer was used by `insert`, with these data and tables, what it was asked for are the data as the only step; so that lists of length 1 are sampled. -/
theorem C102_insert {u : Writer.Use} {data : Timestep} {entries : List (String × Pri)}
    (h : (u.calls ++ [u.last]).map Prod.fst <+: insertCalls data entries ++ [.close true]) {table : String} {steps : List Timestep} (ha : u.Asked table steps) :
    steps = [data] ∧ table ∈ entries.map Prod.fst := by
  obtain ⟨it, hit, pre, tb, p, as, post, w1, n, a1, a2, a3, a4, a5, a6, a7, a8⟩ := ha
  have hoff : ∀ c ∈ (entries.map fun e => Writer.Call.createItem e.1 1 e.2) ++ [.close true], c.offered = [] := by
    intro c hc
    rcases List.mem_append.mp hc with hc | hc
    · obtain ⟨e, _, rfl⟩ := List.mem_map.mp hc; rfl
    · rw [List.mem_singleton.mp hc]; rfl
  have hmem : Writer.Call.createItem tb n p ∈ insertCalls data entries ++ [.close true] := by
    apply h.subset
    rw [a1]
    simp
  have hn : n = 1 ∧ tb ∈ entries.map Prod.fst := by
    simp only [insertCalls, List.cons_append, List.mem_cons, List.mem_append, List.mem_map, reduceCtorEq, false_or, List.not_mem_nil, or_false,
      Writer.Call.createItem.injEq] at hmem
    obtain ⟨e, he, e1, e2, _⟩ := hmem
    exact ⟨by omega, e1 ▸ List.mem_map_of_mem he⟩
  have hpre : pre.map Prod.fst <+: .append data :: ((entries.map fun e => Writer.Call.createItem e.1 1 e.2) ++ [.close true]) := by
    refine List.IsPrefix.trans ?_ h
    rw [a1, List.map_append]
    exact List.prefix_append _ _
  rcases Writer.history_single (w := u.writer) hpre hoff with h0 | h0
  · rw [h0] at a7
    simp only [List.length_nil] at a7
    omega
  · rw [a8, h0, hn.1]
    exact ⟨rfl, by rw [← hit, a5]; exact hn.2⟩

/-! ### Examples -/

namespace PySampleDemo
open SampleDemo

/-- A sampled item of four steps with two columns, one of which is cut into two chunks. -/
def plain : SampledItem := ⟨info, [⟨[⟨1, 1, 2, 0⟩, ⟨2, 0, 2, 0⟩], false⟩, ⟨[⟨3, 0, 4, 0⟩], false⟩], [ch1, ch2, ch3]⟩

theorem plain_has : plain.Has [colA, colB] where
  valid := ⟨by decide, by decide, by decide⟩
  shows := by
    refine ⟨rfl, ?_⟩
    intro i col rc hi hrc
    match i with
    | 0 => exact item_shows.2 0 col rc hi hrc
    | 1 => exact item_shows.2 1 col rc hi hrc
    | i + 2 => simp [plain] at hi
  ne := by simp
  columns := by
    intro c hc
    simp only [List.mem_cons, List.not_mem_nil, or_false] at hc
    rcases hc with rfl | rfl <;> exact valid _ (by simp)
  squeezed := by
    intro i col c hi _ hq
    match i with
    | 0 => cases hi; cases hq
    | 1 => cases hi; cases hq
    | i + 2 => simp [plain] at hi

theorem plain_unsqueezed : ∀ col ∈ plain.traj, col.squeeze = false := by decide

/-- The arrays of what is yielded. -/
def view : PyRes PyYield → Option (List (Key × List Tensor))
  | .ok (.steps l) => some (l.map fun s => (s.info.key, match s.data with | .flat d => d | .nested t => t.flattenWithPath.map Prod.snd))
  | .ok (.whole s) => some [(s.info.key, match s.data with | .flat d => d | .nested t => t.flattenWithPath.map Prod.snd)]
  | _ => none

/-- The result of `sampleItem` for an item. -/
def get (emit : Bool) (sig : Option (PTree Unit)) (s : SampledItem) : PyRes PyYield :=
  match asSampleLocal s with
  | .ok smp =>
    match smp.fetch with
    | .ok x => sampleItem emit sig x
    | _ => .died
  | _ => .died

example := C102_timesteps_partial (α := Unit) plain_has plain_unsqueezed
theorem demo_steps : view (get true none plain) = some [(7, [row 1, row 5]), (7, [row 2, row 6]), (7, [row 3, row 7]), (7, [row 4, row 8])] := by decide +kernel

/-- `{'b': x, 'a': y}`. -/
def sig : PTree Unit := .dict [("b", .leaf ()), ("a", .leaf ())]

theorem sig_wf : sig.WF := by
  simp [sig, PTree.WF, PTree.WFFields]

example := C102_signature_partial plain_has plain_unsqueezed (by decide) sig_wf rfl

/-- The array at a path in the `k`-th step. -/
def atPath (k : Nat) (p : PyPath) : PyRes PyYield → Option Tensor
  | .ok (.steps l) =>
    match l[k]? with
    | some ⟨_, .nested t⟩ => t.at? p
    | _ => none
  | _ => none

theorem demo_signature : atPath 2 [.key "a"] (get true (some sig) plain) = some (row 3) ∧ atPath 2 [.key "b"] (get true (some sig) plain) = some (row 7) := by
  decide +kernel

/-- An exception or not. -/
def exc : PyRes PyYield → Option PyExc
  | .raised e => some e
  | _ => none

theorem demo_count : exc (get true (some (.leaf ())) plain) = some .valueError ∧ exc (get false (some (.leaf ())) plain) = some .valueError := by decide +kernel

/-- One column of four rows and one of two. -/
theorem demo_lengths : exc (get true none ⟨info, [⟨[⟨1, 1, 2, 0⟩], false⟩, ⟨[⟨3, 0, 4, 0⟩], false⟩], [ch1, ch3]⟩) = some .valueError := by decide +kernel

/-- An item of one step, made from the last row of a column as `history['x'][-1]` does it. The row is a vector of length 2. -/
def squeezed : SampledItem := ⟨info, [⟨[⟨1, 0, 1, 0⟩], true⟩], [ch1]⟩

theorem squeezed_has : squeezed.Has [colD] where
  valid := ⟨by decide, by decide, by decide⟩
  shows := by
    refine ⟨rfl, ?_⟩
    intro i col rc hi hrc
    match i with
    | 0 =>
      cases hi; cases hrc
      refine ⟨rfl, ?_⟩
      intro j sl rows hj hrows
      match j with
      | 0 => cases hj; cases hrows; exact ⟨ch1, _, 0, 1, by simp [squeezed], rfl, rfl, rows_are (xs := [0, 1, 2]) (by decide), rfl, rfl, by decide, rfl⟩
      | j + 1 => simp at hj
    | i + 1 => simp [squeezed] at hi
  ne := by simp
  columns := by
    intro c hc
    rw [List.mem_singleton.mp hc]
    exact ⟨⟨rows_are (xs := [0]) (by decide), by decide⟩, by decide⟩
  squeezed := by
    intro i col c hi hc _
    match i with
    | 0 => cases hc; rfl
    | i + 1 => simp [squeezed] at hi

example := C102_squeezed_axis (α := Unit) squeezed_has (by decide) (n := 2) (by
  intro c hc
  rw [List.mem_singleton.mp hc]
  exact ⟨[], rfl⟩)

/-- The two elements of the vector are taken for two steps. -/
theorem demo_squeezed : view (get true none squeezed) = some [(7, [⟨.int32, [], [0]⟩]), (7, [⟨.int32, [], [1]⟩])] ∧
    view (get false none squeezed) = some [(7, [row 0])] := by decide +kernel

/-- The same with a number in place of the vector, next to a column that is not squeezed. -/
def number (x : Nat) : Tensor := ⟨.int32, [], [x]⟩
def ch5 : ChunkData := ⟨5, none, [Tensor.stack .int32 [] [number 8, number 9]], false⟩
def scalar : SampledItem := ⟨info, [⟨[⟨5, 0, 1, 0⟩], false⟩, ⟨[⟨5, 1, 1, 0⟩], true⟩], [ch5]⟩
def colN (x : Nat) : RowColumn := ⟨.int32, [], [[number x]]⟩

theorem number_is (x : Nat) (hx : x < 100) : Tensor.Is .int32 [] (number x) := by
  refine ⟨⟨rfl, ?_⟩, rfl, rfl⟩
  intro w hw y hy
  simp only [number, DType.bits, Option.some.injEq] at hw
  subst hw
  simp only [number, List.mem_cons, List.not_mem_nil, or_false] at hy
  omega

theorem scalar_has : scalar.Has [colN 8, colN 9] where
  valid := ⟨by decide, by decide, by decide⟩
  shows := by
    have h5 : ∀ t ∈ [number 8, number 9], Tensor.Is .int32 [] t := by
      intro t ht
      simp only [List.mem_cons, List.not_mem_nil, or_false] at ht
      rcases ht with rfl | rfl <;> exact number_is _ (by omega)
    refine ⟨rfl, ?_⟩
    intro i col rc hi hrc
    match i with
    | 0 =>
      cases hi; cases hrc
      refine ⟨rfl, ?_⟩
      intro j sl rows hj hrows
      match j with
      | 0 => cases hj; cases hrows; exact ⟨ch5, _, 0, 1, by simp [scalar], rfl, rfl, h5, rfl, rfl, by decide, rfl⟩
      | j + 1 => simp at hj
    | 1 =>
      cases hi; cases hrc
      refine ⟨rfl, ?_⟩
      intro j sl rows hj hrows
      match j with
      | 0 => cases hj; cases hrows; exact ⟨ch5, _, 1, 1, by simp [scalar], rfl, rfl, h5, rfl, rfl, by decide, rfl⟩
      | j + 1 => simp at hj
    | i + 2 => simp [scalar] at hi
  ne := by simp
  columns := by
    intro c hc
    simp only [List.mem_cons, List.not_mem_nil, or_false] at hc
    rcases hc with rfl | rfl
    all_goals
      refine ⟨⟨?_, by decide⟩, by decide⟩
      intro t ht
      simp only [RowColumn.rows, colN, List.flatten_cons, List.flatten_nil, List.append_nil, List.mem_singleton] at ht
      subst ht
      exact number_is _ (by omega)
  squeezed := by
    intro i col c hi hc _
    match i with
    | 0 => cases hc; rfl
    | 1 => cases hc; rfl
    | i + 2 => simp [scalar] at hi

example := C102_squeezed_scalar scalar_has (i := 1) rfl rfl rfl rfl (some sig)
theorem demo_scalar : exc (get true none scalar) = some .typeError ∧ view (get false none scalar) = some [(7, [Tensor.stack .int32 [] [number 8], number 9])] := by
  decide +kernel

/-- Two trajectories and an error: the second list is the last thing that is yielded. -/
theorem demo_generator :
    let x : PyInfo × List Tensor := (info.py, [Tensor.stack .int32 [2] [row 1, row 2]])
    ((clientSample true (none : Option (PTree Unit)) 3 [.ok x, .ok x, .err .deadlineExceeded, .ok x]).1.map fun y => (view (.ok y)).map List.length) =
      [some 2, some 2] ∧
    (clientSample true (none : Option (PTree Unit)) 3 [.ok x, .ok x, .err .deadlineExceeded, .ok x]).2 = .raised (.status .deadlineExceeded) ∧
    (clientSample true (none : Option (PTree Unit)) 3 [.ok x, .ok x]).2 = .waiting ∧
    (clientSample true (none : Option (PTree Unit)) 2 [.ok x, .ok x, .ok x]).2 = .finished ∧
    (clientSample true (none : Option (PTree Unit)) (-1) [.ok x]).2 = .finished := by decide +kernel

open ClientSampler SampleOrderDemo in
/-- A sampler of `Client.sample` that gets the two samples of `StepsDemo`. -/
def cev (wr : List Entry) : List (Nat × ClientSampler.Event) :=
  [(0, .work 0), (7, .work 0), (0, .write 0 none), (0, .response 0 (wr.take 1)), (0, .call 0 .trajectory), (0, .work 0), (0, .pop 0), (0, .finish 0),
   (0, .write 0 none), (0, .response 0 ((wr.drop 1).take 1)), (0, .call 1 .trajectory), (0, .response 0 (wr.drop 2)),
   (0, .work 0), (0, .pop 1), (0, .finish 1)]

/-- Whether an event is no call of `GetNextTimestep`. -/
def noTimestepsB (_ : ClientSampler) : ClientSampler.Event → Bool
  | .call _ .timestep => false
  | _ => true

/-- What Python gets; the information about the item is left out. -/
def toPy : SampleOut → Res (PyInfo × List Tensor)
  | .trajectory d => .ok (info.py, d)
  | .error c => .err c
  | _ => .died

/-- The hypotheses of `C102_written_partial` are met, and these are the steps that are yielded: 2 and 3, and 2 to 5. -/
theorem demo_written : ∃ v u L, (Service.init (newTables EndToEndDemo.cfgs)).run StepsDemo.wire StepsDemo.evs = some v ∧
    ClientSampler.Linked EndToEndDemo.cfg 0 v.written ((cev (v.written 7)).map Prod.snd) u L ∧
    (∀ e ∈ (cev (v.written 7)).map Prod.snd, ClientSampler.NoTimesteps e) ∧
    (∀ q ∈ L.opened, ∀ r ∈ Service.sampleRequests q StepsDemo.evs, r ∈ u.sent) ∧
    (clientSample true (none : Option (PTree Unit)) 2 (u.log.map toPy)).1.map (fun y => view (.ok y)) =
      [some [(7, [Writer.Demo.x 2]), (7, [Writer.Demo.x 3])],
       some [(7, [Writer.Demo.x 2]), (7, [Writer.Demo.x 3]), (7, [Writer.Demo.x 4]), (7, [Writer.Demo.x 5])]] ∧
    (clientSample true (none : Option (PTree Unit)) 2 (u.log.map toPy)).2 = .finished := by
  have h : (((Service.init (newTables EndToEndDemo.cfgs)).run StepsDemo.wire StepsDemo.evs).any fun v =>
      (StepsDemo.checkedRun EndToEndDemo.cfg v.written noTimestepsB (ClientSampler.init EndToEndDemo.cfg 0, .none) (cev (v.written 7))).any fun x =>
        decide ((∀ q ∈ x.2.opened, ∀ r ∈ Service.sampleRequests q StepsDemo.evs, r ∈ x.1.sent) ∧
          (clientSample true (none : Option (PTree Unit)) 2 (x.1.log.map toPy)).1.map (fun y => view (.ok y)) =
            [some [(7, [Writer.Demo.x 2]), (7, [Writer.Demo.x 3])],
             some [(7, [Writer.Demo.x 2]), (7, [Writer.Demo.x 3]), (7, [Writer.Demo.x 4]), (7, [Writer.Demo.x 5])]] ∧
          (clientSample true (none : Option (PTree Unit)) 2 (x.1.log.map toPy)).2 = .finished)) = true := by decide +kernel
  rw [Option.any_eq_true] at h
  obtain ⟨v, hv, h⟩ := h
  rw [Option.any_eq_true] at h
  obtain ⟨⟨u, L⟩, hu, h⟩ := h
  simp only [decide_eq_true_eq] at h
  obtain ⟨h1, _⟩ := StepsDemo.checkedRun_ok (Q := fun _ _ => True) (fun _ _ _ => trivial) (x := (ClientSampler.init EndToEndDemo.cfg 0, .none)) .init .init hu
  refine ⟨v, u, L, hv, by simpa using h1, ?_, h.1, h.2.1, h.2.2⟩
  intro e he
  simp only [cev, List.map_cons, List.map_nil, List.mem_cons, List.not_mem_nil, or_false] at he
  rcases he with rfl | rfl | rfl | rfl | rfl | rfl | rfl | rfl | rfl | rfl | rfl | rfl | rfl | rfl | rfl <;> simp [ClientSampler.NoTimesteps]

/-- The writer that `client.insert(3, {'a': 1, 'b': 2})` makes, and its first two calls; the second item is the last call. -/
def inserter : Writer := .new 1 1 false (some 25) none id fun _ => false

def insertEvents : List Writer.Event := [(.append [Writer.Demo.x 3], []), (.createItem "a" 1 (.val 1), [.write true])]

def insertBefore : Writer := (inserter.run insertEvents).getD inserter

def insertUse : Writer.Use where
  writer := inserter
  spec := [(.int32, [])]
  calls := insertEvents
  last := (.createItem "b" 1 (.val 2), [.write true])
  before := insertBefore
  new := ⟨rfl, fun _ _ h => h⟩
  runs := by
    have : (inserter.run insertEvents).isSome = true := by decide +kernel
    obtain ⟨b, hb⟩ := Option.isSome_iff_exists.mp this
    rw [insertBefore, hb]
    rfl
  sound := ⟨⟨rfl, by simpa using Writer.Demo.wf 3, by decide⟩, ⟨by decide, .inl (by decide), by decide⟩, ⟨by decide, .inl (by decide), by decide⟩, trivial⟩
  fits := by
    intro data as h
    simp only [insertEvents, List.cons_append, List.nil_append, List.mem_cons, Prod.mk.injEq, List.not_mem_nil, or_false,
      reduceCtorEq, false_and, Writer.Call.append.injEq] at h
    obtain ⟨rfl, _⟩ := h
    refine ⟨rfl, fun i d sh t h1 h2 => ?_⟩
    cases i with
    | zero => cases h1; cases h2; exact ⟨Writer.Demo.wf 3, rfl, rfl⟩
    | succ i => simp at h1

/-- The hypotheses of `C102_insert` are met: the item in the table "a" was asked for. -/
theorem demo_insert : (insertUse.calls ++ [insertUse.last]).map Prod.fst <+: insertCalls [Writer.Demo.x 3] [("a", .val 1), ("b", .val 2)] ++ [.close true] ∧
    insertUse.Asked "a" [[Writer.Demo.x 3]] := by
  have hrun : ∃ w1, inserter.run [(.append [Writer.Demo.x 3], [])] = some w1 ∧ (w1.createItem "a" 1 (.val 1) [.write true]).1.drawn = w1.drawn + 1 := ⟨_, rfl, by decide⟩
  obtain ⟨w1, h1, h2⟩ := hrun
  exact ⟨⟨[.close true], rfl⟩, ⟨w1.gen w1.drawn, "a", .val 1, [], []⟩, rfl, [(.append [Writer.Demo.x 3], [])], "a", .val 1, [.write true], _, w1, 1, rfl, h1, rfl, h2, rfl, rfl,
    by decide, by decide⟩

end PySampleDemo

/-- C102 does not hold as the documentation has it: a trajectory of one step, both of whose columns have one row, raises a `TypeError` because one of
them is squeezed. (In `PySampleDemo.demo_squeezed` one step comes as two.) -/
theorem C102_timesteps_is_false : ¬ TimestepsAsDocumented := by
  intro h
  obtain ⟨smp, x, h1, h2, h3, _⟩ := h _ _ PySampleDemo.scalar_has
  obtain ⟨l, h4, _⟩ := h3 (by decide)
  obtain ⟨smp', x', g1, g2, g3⟩ := C102_squeezed_scalar PySampleDemo.scalar_has (i := 1) rfl rfl rfl rfl (none : Option (PTree Unit))
  rw [h1] at g1
  cases g1
  rw [h2] at g2
  cases g2
  rw [h4] at g3
  cases g3

end Verif
