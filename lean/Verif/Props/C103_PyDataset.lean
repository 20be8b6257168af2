import Verif.Proofs.PyDataset
import Verif.Proofs.PyUnion
import Verif.Props.C61_C70_OutputSpec
import Verif.Props.C84_C88_Dataset
/-
C103: a dataset that is made from the signature of a table fits the table, and its elements are as its `element_spec` says.
-/
namespace Verif
open DataIter

/-! ### Helpers -/

theorem PNest.inOrder {α : Type} {t : PNest α} (h : t.WF) : t.InOrder t.leaves := PNest.ordered t h

theorem PNest.InOrder.unique {α : Type} {t : PNest α} {l l' : List (List PathStep × α)} (h : t.InOrder l) (h' : t.InOrder l') : l = l' :=
  eq_of_pairwise_mem (fun _ _ h h' => h.asymm h') h.2 h'.2 fun a => (h.1 a.1 a.2).trans (h'.1 a.1 a.2).symm

/-- The structure of the types and shapes of a signature, as `from_table_signature` makes it. -/
def Sig.pySpecs (s : Sig) : PNest TensorSpec := s.decode.map fun l => l.spec?.getD ⟨.int32, none⟩

theorem Sig.pySpecs_at {s : Sig} (hno : ∀ p, ¬ s.At p .other) {p : List PathStep} {w : TensorSpec} :
    s.pySpecs.At p w ↔ ∃ c, s.Leaf p c ∧ w = c.spec := by
  unfold Sig.pySpecs
  rw [PNest.map_at]
  constructor
  · rintro ⟨l, hl, rfl⟩
    rcases Sig.decode_at.mp hl with ⟨c, rfl, h⟩ | ⟨c, rfl, h⟩ | ⟨rfl, h⟩
    · exact ⟨c, .inl h, rfl⟩
    · exact ⟨c, .inr h, rfl⟩
    · exact absurd h (hno p)
  · rintro ⟨c, h | h, rfl⟩
    · exact ⟨.spec c, Sig.decode_at.mpr (.inl ⟨c, rfl, h⟩), rfl⟩
    · exact ⟨.bounded c, Sig.decode_at.mpr (.inr (.inl ⟨c, rfl, h⟩)), rfl⟩

theorem Sig.pySpecs_wf {s : Sig} (h : s.WF) : s.pySpecs.WF := PNest.map_wf (Sig.decode_wf h)

/-- A structure with the leaves of a signature is flattened like the signature. -/
theorem flatten_like {s : Sig} (hs : s.WF) {out : List NamedSpec} (h : s.flatten = .ok out) {t : PNest TensorSpec} (ht : t.WF)
    {g : TensorSpec → TensorSpec} (hat : ∀ p w, t.At p w ↔ ∃ c, s.Leaf p c ∧ w = g c.spec) : t.flatten = out.map fun c => g c.spec := by
  obtain ⟨l, hl, _, hp, e⟩ := C52 s hs out h
  have : t.leaves = l.map fun x => (x.1, g x.2.spec) := by
    refine (PNest.inOrder ht).unique ⟨?_, ?_⟩
    · intro p w
      rw [List.mem_map, hat]
      constructor
      · rintro ⟨⟨q, c⟩, hm, e⟩
        obtain ⟨rfl, rfl⟩ := Prod.mk.inj e
        exact ⟨c, (hl _ _).mp hm, rfl⟩
      · rintro ⟨c, hc, rfl⟩
        exact ⟨(p, c), (hl _ _).mpr hc, rfl⟩
    · rw [List.pairwise_map]
      exact hp
  unfold PNest.flatten
  rw [this, e, List.map_map, List.map_map]
  rfl

theorem good_iff (a : PyDatasetArgs) : a.good = true ↔ a.Documented := by
  unfold PyDatasetArgs.good
  constructor
  · intro h
    split at h
    · cases h
    split at h
    · cases h
    split at h
    · cases h
    split at h
    · cases h
    rename_i h4
    split at h
    · cases h
    split at h
    · cases h
    refine ⟨by omega, ?_, ?_, by omega, ?_, ?_⟩
    · unfold PositiveOrAuto; omega
    · unfold PositiveOrAuto; omega
    · unfold PositiveOrAuto; omega
    · intro n emit hk
      rw [hk] at h4
      simp only [PyDatasetKind.shortLength, decide_eq_true_eq] at h4
      omega
  · rintro ⟨h1, h2, h3, h4, h5, h6⟩
    unfold PositiveOrAuto at h2 h3 h5
    have hs : ¬ a.kind.shortLength = true := by
      unfold PyDatasetKind.shortLength
      split
      · rename_i n emit hk
        have := h6 n emit hk
        simp only [decide_eq_true_eq]
        omega
      · simp
    rw [if_neg (by omega), if_neg (by omega), if_neg (by omega), if_neg hs, if_neg (by omega), if_neg (by omega)]

theorem infoShape_eq (k : PyDatasetKind) : k.infoShape = k.scalar := by
  cases k with
  | replay l e => cases l <;> cases e <;> rfl
  | _ => rfl

theorem decode_truthy (s : Sig) : s.decode.truthy = true ↔ ¬ s.Empty := by
  cases s with
  | list vs => cases vs <;> simp [Sig.decode, Sig.decodeElems, PNest.truthy, Sig.Empty]
  | tuple vs => cases vs <;> simp [Sig.decode, Sig.decodeElems, PNest.truthy, Sig.Empty]
  | dict fs => cases fs <;> simp [Sig.decode, Sig.decodeFields, PNest.truthy, Sig.Empty]
  | named fs => cases fs <;> simp [Sig.decode, Sig.decodeFields, PNest.truthy, Sig.Empty]
  | _ => simp [Sig.decode, PNest.truthy, Sig.Empty]

theorem mem_flatten_iff {α : Type} {t : PNest α} (h : t.WF) {a : α} : a ∈ t.flatten ↔ ∃ p, t.At p a := by
  unfold PNest.flatten
  rw [List.mem_map]
  constructor
  · rintro ⟨⟨p, b⟩, hm, rfl⟩
    exact ⟨p, ((PNest.inOrder h).1 _ _).mp hm⟩
  · rintro ⟨p, hp⟩
    exact ⟨(p, a), ((PNest.inOrder h).1 _ _).mpr hp, rfl⟩

/-- What `from_table_signature` comes to for a table with a signature. -/
theorem fromTable_eq {infos : List (String × Option Sig)} {table : String} {a : PyDatasetArgs} {s : Sig} (hl : infos.lookup table = some (some s))
    (hs : s.WF) (hno : ∀ p, ¬ s.At p .other) :
    (DatasetRefused [(table, some s)] table a ∧ fromTableSignature infos table a = .raised .valueError) ∨
    (¬ DatasetRefused [(table, some s)] table a ∧ ∃ data : PNest TensorSpec,
      fromTableSignature infos table a = .ok ⟨a, (PyDataset.withInfo a.kind.scalar data).tuples⟩ ∧ data.WF ∧
      ∀ p w, data.At p w ↔ ∃ c, s.Leaf p c ∧ w = a.kind.declares c.spec) := by
  have href : DatasetRefused [(table, some s)] table a ↔ s.Empty ∨ ¬ a.Documented ∨
      ∃ length p c, a.kind = .replay length false ∧ s.Leaf p c ∧ c.spec.shape = none := by
    unfold DatasetRefused
    simp only [List.mem_singleton, Prod.mk.injEq, true_and, Option.some.injEq]
    constructor
    · rintro (h | h | ⟨l, _, p, c, h1, rfl, h2, h3⟩)
      · exact .inl (h s rfl)
      · exact .inr (.inl h)
      · exact .inr (.inr ⟨l, p, c, h1, h2, h3⟩)
    · rintro (h | h | ⟨l, p, c, h1, h2, h3⟩)
      · exact .inl fun _ e => e ▸ h
      · exact .inr (.inl h)
      · exact .inr (.inr ⟨l, s, p, c, h1, rfl, h2, h3⟩)
  rw [href]
  unfold fromTableSignature
  rw [hl]
  simp only
  by_cases he : s.Empty
  · left
    rw [if_neg (by rw [decode_truthy]; simpa using he)]
    exact ⟨.inl he, rfl⟩
  have hany : ¬ (s.decode.flatten.any fun l => l.spec?.isNone) = true := by
    intro h
    obtain ⟨l, hm, hl⟩ := List.any_eq_true.mp h
    obtain ⟨p, hp⟩ := (mem_flatten_iff (Sig.decode_wf hs)).mp hm
    rcases Sig.decode_at.mp hp with ⟨c, rfl, h⟩ | ⟨c, rfl, h⟩ | ⟨rfl, h⟩
    · cases hl
    · cases hl
    · exact absurd h (hno p)
  rw [if_pos ((decode_truthy s).mpr he), if_neg hany]
  have hdata : (s.decode.map fun l => l.spec?.getD ⟨.int32, none⟩) = s.pySpecs := rfl
  rw [hdata]
  by_cases hg : ¬ a.Documented
  · left
    have hb : ¬ a.good = true := fun h => hg ((good_iff a).mp h)
    refine ⟨.inr (.inl hg), ?_⟩
    split <;> simp [PyDataset.new, hb]
  have hg := Classical.not_not.mp hg
  have hgood := (good_iff a).mpr hg
  have plain : (∀ length, a.kind ≠ .replay length false) → (∀ p w, s.pySpecs.At p w ↔ ∃ c, s.Leaf p c ∧ w = a.kind.declares c.spec) ∧
      PyDataset.new a s.pySpecs = .ok ⟨a, (PyDataset.withInfo a.kind.scalar s.pySpecs).tuples⟩ := by
    intro hk
    constructor
    · intro p w
      rw [Sig.pySpecs_at hno]
      have : ∀ c : NamedSpec, a.kind.declares c.spec = c.spec := by
        intro c
        unfold PyDatasetKind.declares
        split
        · rename_i h; exact absurd h (hk _)
        · rename_i h; exact absurd h (hk _)
        · rfl
      simp only [this]
    · unfold PyDataset.new
      rw [if_pos hgood, ← infoShape_eq]
      split
      · rename_i h; exact absurd h (hk _)
      · rfl
  split
  · rename_i length hk
    have hat : ∀ p w, (s.pySpecs.map (addBatchDim length)).At p w ↔ ∃ c, s.Leaf p c ∧ w = a.kind.declares c.spec := by
      intro p w
      rw [PNest.map_at]
      have hd : ∀ w : TensorSpec, a.kind.declares w = addBatchDim length w := by
        intro w
        rw [hk]
        cases length <;> rfl
      constructor
      · rintro ⟨v, hv, rfl⟩
        obtain ⟨c, hc, rfl⟩ := (Sig.pySpecs_at hno).mp hv
        exact ⟨c, hc, (hd _).symm⟩
      · rintro ⟨c, hc, rfl⟩
        exact ⟨c.spec, (Sig.pySpecs_at hno).mpr ⟨c, hc, rfl⟩, hd _⟩
    have hwf : (s.pySpecs.map (addBatchDim length)).WF := PNest.map_wf (Sig.pySpecs_wf hs)
    unfold PyDataset.new
    rw [if_pos hgood, hk]
    simp only
    by_cases hr : ∃ p c, s.Leaf p c ∧ c.spec.shape = none
    · left
      obtain ⟨p, c, hc, hsh⟩ := hr
      refine ⟨.inr (.inr ⟨length, p, c, rfl, hc, hsh⟩), ?_⟩
      rw [if_neg]
      intro h
      rw [List.all_eq_true] at h
      have := h _ ((mem_flatten_iff hwf).mpr ⟨p, (hat _ _).mpr ⟨c, hc, rfl⟩⟩)
      rw [hk] at this
      unfold PyDatasetKind.declares at this
      rw [hsh] at this
      cases length <;> simp [batchDimFits] at this
    · right
      refine ⟨?_, _, ?_, hwf, by rw [hk] at hat; exact hat⟩
      · rintro (h | h | ⟨_, p, c, _, h1, h2⟩)
        · exact he h
        · exact h hg
        · exact hr ⟨p, c, h1, h2⟩
      · rw [if_pos, ← infoShape_eq]
        rw [List.all_eq_true]
        intro w hw
        obtain ⟨p, hp⟩ := (mem_flatten_iff hwf).mp hw
        obtain ⟨c, hc, rfl⟩ := (hat _ _).mp hp
        rw [hk]
        cases hsh : c.spec.shape with
        | none => exact absurd ⟨p, c, hc, hsh⟩ hr
        | some dims => cases length <;> simp [PyDatasetKind.declares, hsh, batchDimFits, lengthDim]
  · rename_i hk
    right
    obtain ⟨h1, h2⟩ := plain (fun l h => hk l h)
    refine ⟨?_, _, h2, Sig.pySpecs_wf hs, h1⟩
    rintro (h | h | ⟨l, _, _, h, _⟩)
    · exact he h
    · exact h hg
    · exact hk l h

/-! ### The theorems -/

/-- C103: the leaves of a structure are taken by Python in the order in which the server's clients in C++ take those of the signature: the
flat signature of the C++ code is the flattened signature of the Python code, whatever dictionaries, lists, tuples and named tuples it is
made of. -/
theorem C103_same_order (s : Sig) (hs : s.WF) (out : List NamedSpec) (h : s.flatten = .ok out) :
    s.decode.flatten.map PyLeaf.spec? = out.map fun c => some c.spec := by
  obtain ⟨l, hl, _, hp, e⟩ := C52 s hs out h
  have hno := (C52_supported s hs).1.mp ⟨out, h⟩
  have : s.decode.leaves.map (fun x => (x.1, x.2.spec?)) = l.map fun x => (x.1, some x.2.spec) := by
    have ho := PNest.inOrder (Sig.decode_wf hs)
    refine eq_of_pairwise_mem (r := fun a b => PathBefore a.1 b.1) (fun _ _ h h' => h.asymm h') ?_ ?_ ?_
    · rw [List.pairwise_map]; exact ho.2
    · rw [List.pairwise_map]; exact hp
    · rintro ⟨p, w⟩
      rw [List.mem_map, List.mem_map]
      constructor
      · rintro ⟨⟨q, x⟩, hm, e⟩
        obtain ⟨rfl, rfl⟩ := Prod.mk.inj e
        rcases Sig.decode_at.mp ((ho.1 _ _).mp hm) with ⟨c, rfl, h⟩ | ⟨c, rfl, h⟩ | ⟨rfl, h⟩
        · exact ⟨(q, c), (hl _ _).mpr (.inl h), rfl⟩
        · exact ⟨(q, c), (hl _ _).mpr (.inr h), rfl⟩
        · exact absurd h (hno q)
      · rintro ⟨⟨q, c⟩, hm, e⟩
        obtain ⟨rfl, rfl⟩ := Prod.mk.inj e
        rcases (hl _ _).mp hm with h | h
        · exact ⟨(q, .spec c), (ho.1 _ _).mpr (Sig.decode_at.mpr (.inl ⟨c, rfl, h⟩)), rfl⟩
        · exact ⟨(q, .bounded c), (ho.1 _ _).mpr (Sig.decode_at.mpr (.inr (.inl ⟨c, rfl, h⟩))), rfl⟩
  have := congrArg (List.map Prod.snd) this
  rw [List.map_map, List.map_map] at this
  unfold PNest.flatten
  rw [e, List.map_map, List.map_map]
  exact this

theorem refused_iff {infos : List (String × Option Sig)} (hn : (infos.map Prod.fst).Nodup) {table : String} {s : Sig}
    (hm : (table, some s) ∈ infos) (a : PyDatasetArgs) : DatasetRefused infos table a ↔ DatasetRefused [(table, some s)] table a := by
  have key : ∀ s', (table, some s') ∈ infos ↔ (table, some s') ∈ [(table, some s)] := by
    intro s'
    simp only [List.mem_singleton, Prod.mk.injEq, true_and, Option.some.injEq]
    constructor
    · intro h
      have h1 := lookup_of_mem hn hm
      rw [lookup_of_mem hn h] at h1
      simpa using h1
    · rintro rfl
      exact hm
  unfold DatasetRefused
  simp only [key]

/-- The signature of the table, if a dataset was made. -/
theorem fromTable_ok {infos : List (String × Option Sig)} (hn : (infos.map Prod.fst).Nodup) {table : String}
    (hw : ∀ s, (table, some s) ∈ infos → s.WF ∧ ∀ p, ¬ s.At p .other) {a : PyDatasetArgs} {d : PyDataset}
    (h : fromTableSignature infos table a = .ok d) : ∃ s data, (table, some s) ∈ infos ∧ ¬ DatasetRefused [(table, some s)] table a ∧
      d = ⟨a, (PyDataset.withInfo a.kind.scalar data).tuples⟩ ∧ data.WF ∧
      ∀ p w, data.At p w ↔ ∃ c, s.Leaf p c ∧ w = a.kind.declares c.spec := by
  cases hl : infos.lookup table with
  | none => simp [fromTableSignature, hl] at h
  | some o =>
    cases o with
    | none => simp [fromTableSignature, hl] at h
    | some s =>
      have hm := PTree.lookup_mem hl
      obtain ⟨hs, hno⟩ := hw s hm
      rcases fromTable_eq (a := a) hl hs hno with ⟨_, g⟩ | ⟨g, data, g1, g2, g3⟩
      · rw [h] at g; cases g
      · rw [h] at g1
        cases g1
        exact ⟨s, data, hm, g, rfl, g2, g3⟩

/-- C103: `from_table_signature` raises a `ValueError` exactly if the table is not there or has no signature, an argument is not as documented, or
whole sequences of tensors of unknown rank are asked for; otherwise there is a dataset. -/
theorem C103_errors {infos : List (String × Option Sig)} (hn : (infos.map Prod.fst).Nodup) {table : String}
    (hw : ∀ s, (table, some s) ∈ infos → s.WF ∧ ∀ p, ¬ s.At p .other) (a : PyDatasetArgs) :
    (fromTableSignature infos table a = .raised .valueError ↔ DatasetRefused infos table a) ∧
    (¬ DatasetRefused infos table a → ∃ d, fromTableSignature infos table a = .ok d) := by
  have gone : (∀ s, (table, some s) ∉ infos) → DatasetRefused infos table a := fun h => .inl fun s hs => absurd hs (h s)
  cases hl : infos.lookup table with
  | none =>
    have hr : DatasetRefused infos table a := gone fun s hs => by rw [lookup_of_mem hn hs] at hl; cases hl
    exact ⟨⟨fun _ => hr, fun _ => by simp [fromTableSignature, hl]⟩, fun h => absurd hr h⟩
  | some o =>
    cases o with
    | none =>
      have hr : DatasetRefused infos table a := gone fun s hs => by rw [lookup_of_mem hn hs] at hl; cases hl
      exact ⟨⟨fun _ => hr, fun _ => by simp [fromTableSignature, hl]⟩, fun h => absurd hr h⟩
    | some s =>
      have hm := PTree.lookup_mem hl
      obtain ⟨hs, hno⟩ := hw s hm
      rw [refused_iff hn hm]
      rcases fromTable_eq (a := a) hl hs hno with ⟨g1, g2⟩ | ⟨g, data, g1, _⟩
      · exact ⟨⟨fun _ => g1, fun _ => g2⟩, fun h => absurd g1 h⟩
      · refine ⟨⟨fun h => ?_, fun h => absurd h g⟩, fun _ => ⟨_, g1⟩⟩
        rw [h] at g1; cases g1

/-- C103: the `element_spec` of the dataset: the info, and data with the structure of the signature in which lists are tuples. -/
theorem C103_element_spec {infos : List (String × Option Sig)} (hn : (infos.map Prod.fst).Nodup) {table : String}
    (hw : ∀ s, (table, some s) ∈ infos → s.WF ∧ ∀ p, ¬ s.At p .other) {a : PyDatasetArgs} {d : PyDataset}
    (h : fromTableSignature infos table a = .ok d) : ∃ s data, (table, some s) ∈ infos ∧
      d.elementSpec = .named [("info", .named [("key", .leaf ⟨.uint64, a.kind.scalar⟩), ("probability", .leaf ⟨.double, a.kind.scalar⟩),
        ("table_size", .leaf ⟨.int64, a.kind.scalar⟩), ("priority", .leaf ⟨.double, a.kind.scalar⟩)]), ("data", data)] ∧
      ¬ data.HasList ∧ ∀ p w, data.At p w ↔ ∃ c, s.Leaf p c ∧ w = a.kind.declares c.spec := by
  obtain ⟨s, data, hm, _, rfl, _, hat⟩ := fromTable_ok hn hw h
  exact ⟨s, data.tuples, hm, rfl, PNest.tuples_noList data, fun p w => PNest.tuples_at.trans (hat p w)⟩

theorem requestFits_self : ∀ l : List TensorSpec, requestFits l l = true
  | [] => rfl
  | w :: ws => by
    have : w.shape.compatible w.shape = true := by
      cases w.shape with
      | none => rfl
      | some dims =>
        show dimsCompatible dims dims = true
        induction dims with
        | nil => rfl
        | cons x xs ih => cases x <;> simp [dimsCompatible, ih]
    simp [requestFits, this, requestFits_self ws]

theorem withInfo_flatten (shape : PShape) (data : PNest TensorSpec) : (PyDataset.withInfo shape data).tuples.flatten =
    [⟨.uint64, shape⟩, ⟨.double, shape⟩, ⟨.int64, shape⟩, ⟨.double, shape⟩] ++ data.flatten := by
  rw [PNest.flatten_tuples]
  simp [PyDataset.withInfo, PNest.flatten, PNest.leaves, PNest.leavesNamed, Function.comp_def]

theorem validate_none {o : SamplerOptions} (h0 : o.maxSamples = -1) (h1 : 1 ≤ o.inFlight) (h2 : 1 ≤ o.numWorkers ∨ o.numWorkers = -1)
    (h3 : 1 ≤ o.perStream ∨ o.perStream = -1) (h4 : o.timeout.any (· < 0) = false) (h5 : 1 ≤ o.flexible ∨ o.flexible = -1) :
    o.validate = none := by
  unfold SamplerOptions.validate SamplerOptions.unlimited autoSelect
  rw [if_neg (by omega), if_neg (by omega), if_neg (by omega), if_neg (by omega), if_neg (by simp [h4]), if_neg (by omega)]

/-- The attributes of the op are good, and what is compared with the signature is the signature. -/
theorem attrs_good {s : Sig} {table : String} {a : PyDatasetArgs} (hr : ¬ DatasetRefused [(table, some s)] table a) {data : PNest TensorSpec}
    {out : List NamedSpec} (hflat : data.flatten = out.map fun c => a.kind.declares c.spec)
    (hout : ∀ c ∈ out, ∃ p c', s.Leaf p c' ∧ c'.spec = c.spec) :
    (PyDataset.mk a (PyDataset.withInfo a.kind.scalar data).tuples).attrs.check = none ∧
    (PyDataset.mk a (PyDataset.withInfo a.kind.scalar data).tuples).attrs.validated = infoSpecs ++ out.map NamedSpec.spec := by
  have hd : a.Documented := Classical.byContradiction fun h => hr (.inr (.inl h))
  have hrank : ∀ length, a.kind = .replay length false → ∀ c ∈ out, c.spec.shape ≠ none := by
    intro length hk c hc h
    obtain ⟨p, c', h1, h2⟩ := hout c hc
    exact hr (.inr (.inr ⟨length, s, p, c', hk, by simp, h1, by rw [h2]; exact h⟩))
  have hopt : (PyDataset.mk a (PyDataset.withInfo a.kind.scalar data).tuples).attrs.options.validate = none := by
    obtain ⟨h1, h2, h3, h4, h5, _⟩ := hd
    unfold PositiveOrAuto at h2 h3 h5
    refine validate_none rfl h1 h2 h3 ?_ h5
    show (fromMillis a.timeoutMs).any (· < 0) = false
    unfold fromMillis
    split
    · rfl
    · simp only [Option.any_some, decide_eq_false_iff_not, millis]
      omega
  have hspecs : (PyDataset.mk a (PyDataset.withInfo a.kind.scalar data).tuples).attrs.specs =
      [⟨.uint64, a.kind.scalar⟩, ⟨.double, a.kind.scalar⟩, ⟨.int64, a.kind.scalar⟩, ⟨.double, a.kind.scalar⟩] ++
        out.map fun c => a.kind.declares c.spec := by
    show (PyDataset.withInfo a.kind.scalar data).tuples.flatten = _
    rw [withInfo_flatten, hflat]
  have plain : (∀ length, a.kind ≠ .replay length false) → (a.kind.scalar = some [] ∧ ∀ w, a.kind.declares w = w) := by
    intro hk
    unfold PyDatasetKind.scalar PyDatasetKind.declares
    constructor
    · split
      · rename_i h; exact absurd h (hk _)
      · rename_i h; exact absurd h (hk _)
      · rfl
    · intro w
      split
      · rename_i h; exact absurd h (hk _)
      · rename_i h; exact absurd h (hk _)
      · rfl
  by_cases hk : ∃ length, a.kind = .replay length false
  · obtain ⟨length, hk⟩ := hk
    have hkind : (PyDataset.mk a (PyDataset.withInfo a.kind.scalar data).tuples).attrs.kind =
        .reverb false (length.getD (-1)) := by
      simp only [PyDataset.attrs, hk]
      cases length with
      | none => rfl
      | some n =>
        have := hd.length n false hk
        simp only
        rw [if_neg (by omega)]
        rfl
    have hdim : ∀ rest, DatasetAttrs.shapeFits (length.getD (-1)) (some (lengthDim length :: rest)) = true := by
      intro rest
      cases length with
      | none => rfl
      | some n =>
        have := hd.length n false hk
        simp [DatasetAttrs.shapeFits, DatasetAttrs.dim0, lengthDim]
        omega
    have hsc : a.kind.scalar = some [lengthDim length] := by
      rw [hk]; cases length <;> rfl
    have hde : ∀ w, a.kind.declares w = ⟨w.dtype, w.shape.map (lengthDim length :: ·)⟩ := by
      intro w; rw [hk]; cases length <;> rfl
    constructor
    · unfold DatasetAttrs.check
      rw [hkind]
      simp only
      rw [if_pos, hopt]
      rw [hspecs, List.all_eq_true]
      intro w hw
      rcases List.mem_append.mp hw with hw | hw
      · simp only [List.mem_cons, List.not_mem_nil, or_false] at hw
        rcases hw with rfl | rfl | rfl | rfl <;> (simp only [hsc]; exact hdim [])
      · obtain ⟨c, hc, rfl⟩ := List.mem_map.mp hw
        rw [hde]
        cases hsh : c.spec.shape with
        | none => exact absurd hsh (hrank length hk c hc)
        | some dims => exact hdim dims
    · unfold DatasetAttrs.validated
      rw [hkind]
      simp only
      rw [hspecs, List.map_append, hsc]
      congr 1
      rw [List.map_map]
      refine List.map_congr_left fun c hc => ?_
      simp only [Function.comp_apply, hde]
      cases hsh : c.spec.shape with
      | none => exact absurd hsh (hrank length hk c hc)
      | some dims =>
        simp only [Option.map_some, DatasetAttrs.dropDim, List.tail_cons]
        rw [← hsh]
  · have hk : ∀ length, a.kind ≠ .replay length false := fun l h => hk ⟨l, h⟩
    obtain ⟨hsc, hde⟩ := plain hk
    have hkind : ∀ n, (PyDataset.mk a (PyDataset.withInfo a.kind.scalar data).tuples).attrs.kind ≠ .reverb false n := by
      intro n
      simp only [PyDataset.attrs]
      split
      · simp
      · simp
      · rename_i length emit h
        cases emit with
        | true => simp
        | false => exact absurd h (hk _)
    constructor
    · unfold DatasetAttrs.check
      split
      · rename_i h; exact absurd h (hkind _)
      · exact hopt
    · unfold DatasetAttrs.validated
      split
      · rename_i h; exact absurd h (hkind _)
      · rw [hspecs, hsc]
        simp only [hde]
        rfl

theorem make_ok {o : SamplerOptions} (h0 : o.maxSamples = -1) (h1 : 1 ≤ o.inFlight) (h2 : 1 ≤ o.numWorkers ∨ o.numWorkers = -1)
    (h5 : 1 ≤ o.flexible ∨ o.flexible = -1) {l : Option Int} (hl : ∀ x, l = some x → 1 ≤ x) (table : String) (spec : Option (List TensorSpec)) :
    ∃ c, SamplerCfg.make o table l spec = .ok c ∧ c.spec = spec := by
  have hmax : o.max = int64Max := by simp [SamplerOptions.max, h0, SamplerOptions.unlimited]
  have hpos : (0 : Int) < int64Max := by decide
  have hw : ¬ o.workers < 1 := by
    unfold SamplerOptions.workers autoSelect
    split <;> omega
  unfold SamplerCfg.make
  rw [if_neg (by omega), if_neg hw]
  simp only
  rw [if_neg, if_neg (by rw [hmax]; omega), if_neg (by omega), if_neg (by unfold autoSelect; omega), if_neg (by unfold autoSelect; omega)]
  · exact ⟨_, rfl, rfl⟩
  · cases l with
    | none => simp
    | some x =>
      have := hl x rfl
      have hb : 1 ≤ (if o.flexible = autoSelect then x else o.flexible) := by
        unfold autoSelect
        split <;> omega
      rw [decide_eq_true_eq]
      omega

theorem attrs_call (d : PyDataset) : d.attrs.kind.call = d.args.kind.yields := by
  unfold PyDataset.attrs PyDatasetKind.yields
  cases d.args.kind with
  | replay length emit => cases emit <;> rfl
  | _ => rfl

/-- The configuration of an iterator of a dataset that was made from a signature. -/
theorem fromTable_make {infos : List (String × Option Sig)} (hn : (infos.map Prod.fst).Nodup) {table : String}
    (hw : ∀ s, (table, some s) ∈ infos → s.WF ∧ ∀ p, ¬ s.At p .other) {a : PyDatasetArgs} {d : PyDataset}
    (h : fromTableSignature infos table a = .ok d) {sigs : Signatures} (hf : flatSignatures infos .empty = .ok sigs)
    {cached : Option Signatures} {server : Res Signatures} (hc : cached = some sigs ∨ cached = none ∧ server = .ok sigs) {l : Option Int}
    (hl : ∀ x, l = some x → 1 ≤ x) : ∃ s data out c, (table, some s) ∈ infos ∧
      d = ⟨a, (PyDataset.withInfo a.kind.scalar data).tuples⟩ ∧ data.WF ∧
      (∀ p w, data.At p w ↔ ∃ c, s.Leaf p c ∧ w = a.kind.declares c.spec) ∧ s.flatten = .ok out ∧
      DatasetCfg.make d.attrs cached server table l = .ok c ∧ c.sampler.spec = some (infoSpecs ++ out.map NamedSpec.spec) ∧
      c.kind = d.attrs.kind := by
  obtain ⟨s, data, hm, hr, rfl, hwf, hat⟩ := fromTable_ok hn hw h
  obtain ⟨hs, hno⟩ := hw s hm
  obtain ⟨out, hout, hget⟩ := (C52_tables infos hn sigs hf).1 table s hm
  have hflat := flatten_like hs hout hwf hat
  have hleaf : ∀ c ∈ out, ∃ p c', s.Leaf p c' ∧ c'.spec = c.spec := by
    obtain ⟨lv, h1, _, _, e⟩ := C52 s hs out hout
    intro c hc
    rw [e] at hc
    obtain ⟨⟨p, c'⟩, hm, rfl⟩ := List.mem_map.mp hc
    exact ⟨p, c', (h1 _ _).mp hm, rfl⟩
  obtain ⟨hcheck, hval⟩ := attrs_good hr hflat hleaf
  have hd : a.Documented := Classical.byContradiction fun h => hr (.inr (.inl h))
  obtain ⟨c, hmake, hspec⟩ := make_ok (o := (PyDataset.mk a (PyDataset.withInfo a.kind.scalar data).tuples).attrs.options) rfl hd.inFlight
    hd.numWorkers hd.flexible hl table (some (infoSpecs ++ out.map NamedSpec.spec))
  have hfetch : fetchSignatures cached false server = .ok sigs := by
    rcases hc with rfl | ⟨rfl, rfl⟩ <;> rfl
  have hout' : (PyDataset.mk a (PyDataset.withInfo a.kind.scalar data).tuples).attrs.outputSpec cached server table =
      .ok (some (infoSpecs ++ out.map NamedSpec.spec)) := by
    unfold DatasetAttrs.outputSpec
    rw [hfetch, hval]
    have : newSamplerChecked (.ok sigs) table (infoSpecs ++ out.map NamedSpec.spec) = .ok (some (infoSpecs ++ out.map NamedSpec.spec)) := by
      have hsp : samplerSpec sigs table = some (infoSpecs ++ out.map NamedSpec.spec) := by
        unfold samplerSpec
        rw [hget]
      simp [newSamplerChecked, hsp, requestFits_self]
    rw [this]
  refine ⟨s, data, out, ⟨_, c⟩, hm, rfl, hwf, hat, hout, ?_, hspec, rfl⟩
  unfold DatasetCfg.make
  rw [hcheck, hout']
  simp only [hmake]

/-- C103: the op accepts the dataset and the table accepts its sampler: whenever an iterator is made, with the signatures that the server tells
of, there is neither an error nor a failed check. (`l` is the default batch size of a table of the same process.) -/
theorem C103_accepted {infos : List (String × Option Sig)} (hn : (infos.map Prod.fst).Nodup) {table : String}
    (hw : ∀ s, (table, some s) ∈ infos → s.WF ∧ ∀ p, ¬ s.At p .other) {a : PyDatasetArgs} {d : PyDataset}
    (h : fromTableSignature infos table a = .ok d) {sigs : Signatures} (hf : flatSignatures infos .empty = .ok sigs)
    {cached : Option Signatures} {server : Res Signatures} (hc : cached = some sigs ∨ cached = none ∧ server = .ok sigs) {l : Option Int}
    (hl : ∀ x, l = some x → 1 ≤ x) : ∃ c, DatasetCfg.make d.attrs cached server table l = .ok c := by
  obtain ⟨_, _, _, c, _, _, _, _, _, h, _⟩ := fromTable_make hn hw h hf hc hl
  exact ⟨c, h⟩

/-- C103: the elements that such a dataset yields have one array for every leaf of the data of the `element_spec`, in the order of the leaves, and
each array agrees with the tensor that the signature has in its place (whole sequences have one more dimension). -/
theorem C103_elements {infos : List (String × Option Sig)} (hn : (infos.map Prod.fst).Nodup) {table : String}
    (hw : ∀ s, (table, some s) ∈ infos → s.WF ∧ ∀ p, ¬ s.At p .other) {a : PyDatasetArgs} {d : PyDataset}
    (h : fromTableSignature infos table a = .ok d) {sigs : Signatures} (hf : flatSignatures infos .empty = .ok sigs)
    {cached : Option Signatures} {server : Res Signatures} (hc : cached = some sigs ∨ cached = none ∧ server = .ok sigs) {l : Option Int}
    (hl : ∀ x, l = some x → 1 ≤ x) {c : DatasetCfg} (hm : DatasetCfg.make d.attrs cached server table l = .ok c) {now : Int}
    {evs : List DataIter.Event} {it : DataIter} (hit : Reach c now evs it) {o : SampleOut} (ho : .element o ∈ it.log) :
    ∃ s data leaves arrays, (table, some s) ∈ infos ∧ d.elementSpec.Sub [.field 1 "data"] data ∧ data.InOrder leaves ∧
      o.data? = some (a.kind.yields, arrays) ∧ arrays.length = leaves.length ∧
      ∀ (i : Nat) (p : List PathStep) (w : TensorSpec) (t : Tensor), leaves[i]? = some (p, w) → arrays[i]? = some t →
        ∃ x, s.Leaf p x ∧ w = a.kind.declares x.spec ∧ a.kind.yields.Agrees x.spec t := by
  obtain ⟨s, data, out, c', hmem, hd, hwf, hat, hout, hmake, hspec, hkind⟩ := fromTable_make hn hw h hf hc hl
  rw [hm] at hmake
  cases hmake
  obtain ⟨i, hi⟩ := List.mem_iff_getElem?.mp ho
  obtain ⟨o', ho', hsh⟩ := C84_results hit i _ hi
  have : o' = o := by
    rcases hsh with hs | ⟨hs, _⟩ | ⟨hs, _⟩
    · cases o' with
      | error e => rcases hs with hs | ⟨hs, _⟩ <;> cases hs
      | _ => cases hs; rfl
    · cases hs
    · cases hs
  subst this
  obtain ⟨sevs, hr⟩ := hit.inv.reach
  rcases C61_returned (four := infoSpecs) rfl hspec hr (List.mem_of_getElem? ho') with ⟨e, rfl⟩ | ⟨k, arrays, hdat, hag⟩
  · rcases hsh with hs | ⟨hs, _⟩ | ⟨hs, _⟩
    · rcases hs with hs | ⟨hs, _⟩ <;> cases hs
    · cases hs
    · cases hs
  have hk := hr.kinds.2 _ (List.mem_of_getElem? ho') k arrays hdat
  have hy : d.attrs.kind.call = a.kind.yields := by
    rw [hd]
    exact attrs_call _
  rw [hkind, hy] at hk
  subst hk
  obtain ⟨hs, hno⟩ := hw s hmem
  obtain ⟨lv, h1, _, h2, e⟩ := C52 s hs out hout
  have hord : data.tuples.InOrder (lv.map fun x => (x.1, a.kind.declares x.2.spec)) := by
    refine ⟨?_, by rw [List.pairwise_map]; exact h2⟩
    intro p w
    rw [PNest.tuples_at, hat, List.mem_map]
    constructor
    · rintro ⟨⟨q, x⟩, hx, e⟩
      obtain ⟨rfl, rfl⟩ := Prod.mk.inj e
      exact ⟨x, (h1 _ _).mp hx, rfl⟩
    · rintro ⟨x, hx, rfl⟩
      exact ⟨(p, x), (h1 _ _).mpr hx, rfl⟩
  refine ⟨s, data.tuples, _, arrays, hmem, ?_, hord, hdat, ?_, ?_⟩
  · rw [hd]
    exact .named (i := 1) rfl .here
  · rw [hag.1, e]
    simp
  · intro j p w t hp ht
    rw [List.getElem?_map] at hp
    obtain ⟨⟨q, x⟩, hx, e'⟩ := Option.map_eq_some_iff.mp hp
    obtain ⟨rfl, rfl⟩ := Prod.mk.inj e'
    refine ⟨x, (h1 _ _).mp (List.mem_of_getElem? hx), rfl, ?_⟩
    exact hag.2 j x.spec t (by rw [e, List.map_map, List.getElem?_map, hx]; rfl) ht

/-- C103, partial: so the elements agree with the `element_spec` of the dataset, leaf by leaf. Missing: whole sequences with a given
`sequence_length`, see `C103_sequence_is_false`. -/
theorem C103_elements_partial {infos : List (String × Option Sig)} (hn : (infos.map Prod.fst).Nodup) {table : String}
    (hw : ∀ s, (table, some s) ∈ infos → s.WF ∧ ∀ p, ¬ s.At p .other) {a : PyDatasetArgs} (hk : ∀ n, a.kind ≠ .replay (some n) false)
    {d : PyDataset} (h : fromTableSignature infos table a = .ok d) {sigs : Signatures} (hf : flatSignatures infos .empty = .ok sigs)
    {cached : Option Signatures} {server : Res Signatures} (hc : cached = some sigs ∨ cached = none ∧ server = .ok sigs) {l : Option Int}
    (hl : ∀ x, l = some x → 1 ≤ x) {c : DatasetCfg} (hm : DatasetCfg.make d.attrs cached server table l = .ok c) {now : Int}
    {evs : List DataIter.Event} {it : DataIter} (hit : Reach c now evs it) {o : SampleOut} (ho : .element o ∈ it.log) :
    ∃ data leaves arrays, d.elementSpec.Sub [.field 1 "data"] data ∧ data.InOrder leaves ∧ o.data? = some (a.kind.yields, arrays) ∧
      arrays.length = leaves.length ∧
      ∀ (i : Nat) (p : List PathStep) (w : TensorSpec) (t : Tensor), leaves[i]? = some (p, w) → arrays[i]? = some t →
        w.Allows t.dtype t.shape := by
  obtain ⟨s, data, leaves, arrays, hmem, h1, h2, h3, h4, h5⟩ := C103_elements hn hw h hf hc hl hm hit ho
  refine ⟨data, leaves, arrays, h1, h2, h3, h4, ?_⟩
  intro i p w t hp ht
  obtain ⟨x, hx, rfl, hag⟩ := h5 i p w t hp ht
  unfold PyDatasetKind.declares
  cases hkd : a.kind with
  | timestep => rw [hkd] at hag; exact hag
  | trajectory => rw [hkd] at hag; exact hag
  | replay length emit =>
    rw [hkd] at hag
    cases emit with
    | true => cases length <;> exact hag
    | false =>
      cases length with
      | some n => exact absurd hkd (hk n)
      | none =>
        obtain ⟨n, rest, e1, e2, e3⟩ := hag
        refine ⟨e2, ?_⟩
        intro dims hdims
        obtain ⟨dims', hd', rfl⟩ := Option.map_eq_some_iff.mp hdims
        obtain ⟨g1, g2⟩ := e3 dims' hd'
        rw [e1]
        refine ⟨by simp [g1], ?_⟩
        intro j m hj
        cases j with
        | zero => simp at hj
        | succ j => exact g2 j m hj

/-- C103: the constructor, for types and shapes that are given: `ValueError` exactly if an argument is not as documented or, for whole sequences,
a shape does not have the sequence length as its leading dimension. -/
theorem C103_constructor (a : PyDatasetArgs) {data : PNest TensorSpec} (hwf : data.WF) :
    (PyDataset.new a data = .raised .valueError ↔
      ¬ a.Documented ∨ ∃ length p w, a.kind = .replay length false ∧ data.At p w ∧ ¬ LeadingDim length w.shape) ∧
    (PyDataset.new a data ≠ .raised .valueError → ∃ d, PyDataset.new a data = .ok d ∧ d.args = a ∧ ∀ p w, data.At p w ↔
      d.elementSpec.At (.field 1 "data" :: p) w) := by
  have hfit : ∀ length s, batchDimFits length s = true ↔ LeadingDim length s := by
    intro length s
    unfold LeadingDim
    rcases s with _ | (_ | ⟨x, rest⟩)
    · simp [batchDimFits]
    · simp [batchDimFits]
    · cases length <;> simp [batchDimFits, lengthDim]
  have hdata : ∀ shape p w, data.At p w ↔ (PyDataset.withInfo shape data).tuples.At (.field 1 "data" :: p) w := by
    intro shape p w
    rw [PNest.tuples_at]
    constructor
    · exact fun h => .named (i := 1) rfl h
    · intro h
      cases h with
      | named hi h =>
        simp only [List.getElem?_cons_succ, List.getElem?_cons_zero, Option.some.injEq, Prod.mk.injEq, true_and] at hi
        subst hi
        exact h
  by_cases hg : a.Documented
  · have hgood := (good_iff a).mpr hg
    unfold PyDataset.new
    rw [if_pos hgood]
    split
    · rename_i length hk
      by_cases hall : (data.flatten.all fun w => batchDimFits length w.shape) = true
      · rw [if_pos hall]
        refine ⟨⟨fun h => (by cases h), ?_⟩, fun _ => ⟨_, rfl, rfl, hdata _⟩⟩
        rintro (h | ⟨l, p, w, hk', hp, hb⟩)
        · exact absurd hg h
        · rw [hk] at hk'
          cases hk'
          exact absurd ((hfit _ _).mp (List.all_eq_true.mp hall w ((mem_flatten_iff hwf).mpr ⟨p, hp⟩))) hb
      · rw [if_neg hall]
        refine ⟨⟨fun _ => .inr ?_, fun _ => rfl⟩, fun h => absurd rfl h⟩
        obtain ⟨w, hm, hw⟩ : ∃ w ∈ data.flatten, ¬ batchDimFits length w.shape = true := by
          rw [List.all_eq_true] at hall
          refine Classical.byContradiction fun h => hall fun w hw => Classical.byContradiction fun h' => h ⟨w, hw, h'⟩
        obtain ⟨p, hp⟩ := (mem_flatten_iff hwf).mp hm
        exact ⟨length, p, w, hk, hp, fun h => hw ((hfit _ _).mpr h)⟩
    · rename_i hk
      refine ⟨⟨fun h => (by cases h), ?_⟩, fun _ => ⟨_, rfl, rfl, hdata _⟩⟩
      rintro (h | ⟨l, p, w, hk', _⟩)
      · exact absurd hg h
      · exact absurd hk' (hk l)
  · have hb : ¬ a.good = true := fun h => hg ((good_iff a).mp h)
    unfold PyDataset.new
    rw [if_neg hb]
    exact ⟨⟨fun _ => .inl hg, fun _ => rfl⟩, fun h => absurd rfl h⟩

/-- C103: the arguments get to the op: the sampler has no limit of samples, the given numbers and the given timeout, which is infinite for −1. -/
theorem C103_arguments (d : PyDataset) (h : d.args.Documented) : d.attrs.options.maxSamples = -1 ∧ d.attrs.options.inFlight = d.args.inFlight ∧
    d.attrs.options.numWorkers = d.args.numWorkers ∧ d.attrs.options.perStream = d.args.perStream ∧
    d.attrs.options.flexible = d.args.flexible ∧ d.attrs.kind.call = d.args.kind.yields ∧
    d.attrs.options.timeout = (if d.args.timeoutMs = -1 then none else some (d.args.timeoutMs * 1000000)) ∧
    ∀ length emit, d.args.kind = .replay length emit → d.attrs.kind = .reverb emit (length.getD (-1)) := by
  refine ⟨rfl, rfl, rfl, rfl, rfl, attrs_call d, ?_, ?_⟩
  · show fromMillis d.args.timeoutMs = _
    have := h.timeout
    unfold fromMillis millis
    by_cases h1 : d.args.timeoutMs = -1
    · rw [if_pos (by omega), if_pos h1]
    · rw [if_neg (by omega), if_neg h1]
  · intro length emit hk
    unfold PyDataset.attrs
    simp only [hk]
    cases length with
    | none => rfl
    | some n =>
      have := h.length n emit hk
      simp only [Option.getD_some]
      rw [if_neg (by omega)]

/-- C103: from the constructor of `Table` on: what is given as signature there comes back, so that with a structure of specs which is not empty
the leaves of the `element_spec` are those of the structure. Something that is not a spec is refused by `Table`. -/
theorem C103_table {t : PNest PyLeaf} (ht : t.WF) :
    (t.truthy = true → (∀ p, ¬ t.At p .other) → ∃ s, tableSignature (some t) = .ok (some s) ∧ s.WF ∧ (∀ p, ¬ s.At p .other) ∧ ¬ s.Empty ∧
      s.decode = t ∧ ∀ p c, s.Leaf p c ↔ t.At p (.spec c) ∨ t.At p (.bounded c)) ∧
    (t.truthy = true → (∃ p, t.At p .other) → tableSignature (some t) = .raised .valueError) ∧
    (t.truthy = false → tableSignature (some t) = .ok none) := by
  have hde := PNest.decode_encode t
  refine ⟨?_, ?_, ?_⟩
  · intro h1 h2
    have hat : ∀ p l, t.At p l ↔ (∃ c, l = .spec c ∧ t.encode.At p (.spec c)) ∨ (∃ c, l = .bounded c ∧ t.encode.At p (.bounded c)) ∨
        (l = .other ∧ t.encode.At p .other) := by
      intro p l
      conv => lhs; rw [← hde]
      exact Sig.decode_at
    refine ⟨t.encode, ?_, ?_, ?_, ?_, hde, ?_⟩
    · unfold tableSignature
      simp only
      rw [if_pos h1, if_neg]
      intro h
      obtain ⟨l, hm, hl⟩ := List.any_eq_true.mp h
      obtain ⟨p, hp⟩ := (mem_flatten_iff ht).mp hm
      simp only [decide_eq_true_eq] at hl
      subst hl
      exact h2 p hp
    · intro p fs hs
      have := hs.decode
      rw [hde] at this
      have := ht p _ (by simpa only [Sig.decode] using this)
      rw [Sig.decodeFields_eq, List.map_map] at this
      exact this
    · intro p hp
      exact h2 p ((hat _ _).mpr (.inr (.inr ⟨rfl, hp⟩)))
    · exact (decode_truthy _).mp (by rw [hde]; exact h1)
    · intro p c
      rw [hat, hat]
      unfold Sig.Leaf
      simp
  · rintro h1 ⟨p, hp⟩
    unfold tableSignature
    simp only
    rw [if_pos h1, if_pos]
    exact List.any_eq_true.mpr ⟨_, (mem_flatten_iff ht).mpr ⟨p, hp⟩, by simp⟩
  · intro h
    unfold tableSignature
    simp only
    rw [if_neg (by simp [h])]

/-! ### Cases -/

namespace PyDatasetDemo
open DatasetDemo SigDemo

/-- A tensor of two numbers. -/
def two : NamedSpec := ⟨"", ⟨.int32, some [some 2]⟩⟩

/-- What is given to `Table`: a dictionary with a list. -/
def given : PNest PyLeaf := .dict [("x", .list [.leaf (.spec two)])]

/-- The tables of the server. -/
def infos : List (String × Option Sig) := [("u", none), ("t", some given.encode)]

/-- The arguments of a dataset. -/
def args (kind : PyDatasetKind) : PyDatasetArgs := ⟨kind, 1, 1, -1, 5000, -1⟩

/-- The dataset that is made. -/
def made (kind : PyDatasetKind) (shape : PShape) (dims : List (Option Nat)) : PyDataset :=
  ⟨args kind, .named [("info", .named [("key", .leaf ⟨.uint64, shape⟩), ("probability", .leaf ⟨.double, shape⟩), ("table_size", .leaf ⟨.int64, shape⟩),
    ("priority", .leaf ⟨.double, shape⟩)]), ("data", .dict [("x", .tuple [.leaf ⟨.int32, some dims⟩])])]⟩

theorem given_table : tableSignature (some given) = .ok (some given.encode) := by
  simp [tableSignature, given, PNest.truthy, PNest.flatten, PNest.leaves, PNest.leavesEach, PNest.leavesElems, sortEntries, insertEntry]

theorem given_wf : given.encode.WF := by
  intro p fs h
  simp only [given, PNest.encode, PNest.encodeFields, PNest.encodeElems] at h
  cases h with
  | here => simp
  | dict hm h =>
    simp only [List.mem_singleton, Prod.mk.injEq] at hm
    obtain ⟨rfl, rfl⟩ := hm
    cases h with
    | list hi h =>
      rename_i i _ _
      cases i with
      | zero =>
        simp only [List.getElem?_cons_zero, Option.some.injEq] at hi
        subst hi
        cases h
      | succ i => simp at hi

theorem given_specs : ∀ p, ¬ given.encode.At p .other := by
  intro p h
  simp only [given, PNest.encode, PNest.encodeFields, PNest.encodeElems] at h
  cases h with
  | dict hm h =>
    simp only [List.mem_singleton, Prod.mk.injEq] at hm
    obtain ⟨rfl, rfl⟩ := hm
    cases h with
    | list hi h =>
      rename_i i _ _
      cases i with
      | zero =>
        simp only [List.getElem?_cons_zero, Option.some.injEq] at hi
        subst hi
        cases h
      | succ i => simp at hi

theorem infos_good (s : Sig) (h : ("t", some s) ∈ infos) : s.WF ∧ ∀ p, ¬ s.At p .other := by
  simp only [infos, List.mem_cons, Prod.mk.injEq, Option.some.injEq, List.not_mem_nil, or_false] at h
  rcases h with ⟨_, h⟩ | ⟨_, rfl⟩
  · cases h
  · exact ⟨given_wf, given_specs⟩

/-- Timesteps, trajectories, and sequences of five steps. -/
theorem demo_made : fromTableSignature infos "t" (args .timestep) = .ok (made .timestep (some []) [some 2]) ∧
    fromTableSignature infos "t" (args .trajectory) = .ok (made .trajectory (some []) [some 2]) ∧
    fromTableSignature infos "t" (args (.replay (some 5) false)) = .ok (made (.replay (some 5) false) (some [some 5]) [some 5, some 2]) ∧
    fromTableSignature infos "t" (args (.replay none false)) = .ok (made (.replay none false) (some [none]) [none, some 2]) := by
  refine ⟨rfl, rfl, rfl, rfl⟩

/-- A table that is not there, one without signature, a bad argument. -/
theorem demo_refused : fromTableSignature infos "v" (args .timestep) = .raised .valueError ∧
    fromTableSignature infos "u" (args .timestep) = .raised .valueError ∧
    fromTableSignature infos "t" { args .timestep with numWorkers := 0 } = .raised .valueError ∧
    fromTableSignature infos "t" (args (.replay (some 0) true)) = .raised .valueError := by
  refine ⟨rfl, rfl, rfl, rfl⟩

/-- The signatures that a client gets. -/
def sigs : Signatures := ((AMap.empty : Signatures).insert "u" none).insert "t" (some [two.spec])

theorem infos_flat : flatSignatures infos .empty = .ok sigs := by
  have h : flatSignature (some given.encode) = .ok (some [⟨"x/0", two.spec⟩]) := by decide +kernel
  simp only [infos, flatSignatures, h, flatSignature]
  rfl

/-- A sample of two timesteps is yielded, step by step. -/
theorem demo_steps : gives (made .timestep (some []) [some 2]).attrs (flatSignatures infos .empty) (fill ++ get ++ again)
    [.element (.timestep [SampleDemo.row 1] false), .element (.timestep [SampleDemo.row 2] true)] := by
  rw [infos_flat]
  exact gives_of (by decide +kernel)

/-- The hypotheses of `C103_elements` are met. -/
theorem demo_elements : ∃ c it, DatasetCfg.make (made .timestep (some []) [some 2]).attrs none (.ok sigs) "t" (some 1) = .ok c ∧
    Reach c 0 (fill ++ get ++ again) it ∧ .element (.timestep [SampleDemo.row 1] false) ∈ it.log := by
  have := demo_steps
  rw [infos_flat] at this
  obtain ⟨c, it, h1, h2, h3⟩ := this
  exact ⟨c, it, h1, h2, by rw [h3]; simp⟩

example (c : DatasetCfg) (it : DataIter) (h : DatasetCfg.make (made .timestep (some []) [some 2]).attrs none (.ok sigs) "t" (some 1) = .ok c)
    (hr : Reach c 0 (fill ++ get ++ again) it) (ho : .element (.timestep [SampleDemo.row 1] false) ∈ it.log) :=
  C103_elements_partial (infos := infos) (by decide) infos_good (a := args .timestep) (by simp [args]) demo_made.1 infos_flat (.inr ⟨rfl, rfl⟩)
    (l := some 1) (by simp) h hr ho

/-- The constructor with explicit shapes: sequences of 3 steps are accepted, those of 4 and of unknown length refused; so is a timeout of −2. -/
theorem demo_constructor :
    (∃ d, PyDataset.new (args (.replay (some 3) false)) (.tuple [.leaf ⟨.int32, some [some 3, some 2]⟩]) = .ok d) ∧
    PyDataset.new (args (.replay (some 3) false)) (.tuple [.leaf ⟨.int32, some [some 4, some 2]⟩]) = .raised .valueError ∧
    PyDataset.new (args (.replay (some 3) false)) (.tuple [.leaf ⟨.int32, some [none, some 2]⟩]) = .raised .valueError ∧
    PyDataset.new { args .timestep with timeoutMs := -2 } (.tuple [.leaf ⟨.int32, some [some 4, some 2]⟩]) = .raised .valueError :=
  ⟨⟨_, rfl⟩, rfl, rfl, rfl⟩

end PyDatasetDemo
open PyDatasetDemo DatasetDemo

/-- C103 is false for whole sequences with a given `sequence_length`: the dataset declares five steps and yields two. -/
theorem C103_sequence_is_false : ∃ (a : PyDatasetArgs) (d : PyDataset) (evs : List DataIter.Event) (cols : List Tensor),
    fromTableSignature infos "t" a = .ok d ∧ d.elementSpec.At [.field 1 "data", .key "x", .pos 0] ⟨.int32, some [some 5, some 2]⟩ ∧
    gives d.attrs (flatSignatures infos .empty) evs [.element (.batched 2 cols)] ∧ cols.map Tensor.shape = [[2, 2]] := by
  refine ⟨args (.replay (some 5) false), _, fill ++ get, [Tensor.stack .int32 [2] [SampleDemo.row 1, SampleDemo.row 2]], demo_made.2.2.1,
    .named (i := 1) rfl (.dict (List.mem_singleton.mpr rfl) (.tuple (i := 0) rfl .here)), ?_, by decide +kernel⟩
  rw [infos_flat]
  exact gives_of (by decide +kernel)

/-- The order: a dictionary in the order of its keys, a named tuple in its own order. -/
theorem PyDatasetDemo.demo_order : (Sig.dict [("b", .named [("z", .spec (SigDemo.leaf "" 1)), ("c", .bounded (SigDemo.leaf "" 2))]),
      ("a", .list [.spec (SigDemo.leaf "" 3)])]).decode.flatten =
    [.spec (SigDemo.leaf "" 3), .spec (SigDemo.leaf "" 1), .bounded (SigDemo.leaf "" 2)] := by
  simp [Sig.decode, Sig.decodeFields, Sig.decodeElems, PNest.flatten, PNest.leaves, PNest.leavesEach, PNest.leavesNamed, PNest.leavesElems,
    sortEntries, insertEntry]

end Verif
