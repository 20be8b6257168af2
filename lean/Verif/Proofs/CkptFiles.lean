import Verif.Spec.CkptFiles
namespace Verif.Ckpt

/-! ### choosing the latest -/

theorem insertDesc_perm (x : Nat) : ∀ l, (insertDesc x l).Perm (x :: l)
  | [] => .refl _
  | y :: l => by
    unfold insertDesc
    split
    · exact .refl _
    · exact ((insertDesc_perm x l).cons y).trans (.swap x y l)

theorem insertDesc_desc (x : Nat) : ∀ {l : List Nat}, l.Pairwise (fun a b => b ≤ a) → (insertDesc x l).Pairwise (fun a b => b ≤ a)
  | [], _ => by simp [insertDesc]
  | y :: l, h => by
    obtain ⟨h1, h2⟩ := List.pairwise_cons.mp h
    unfold insertDesc
    split
    · rename_i hx
      refine List.pairwise_cons.mpr ⟨fun a ha => ?_, h⟩
      rcases List.mem_cons.mp ha with rfl | ha
      · exact hx
      · have := h1 a ha; omega
    · refine List.pairwise_cons.mpr ⟨fun a ha => ?_, insertDesc_desc x h2⟩
      rcases List.mem_cons.mp ((insertDesc_perm x l).mem_iff.mp ha) with rfl | ha
      · omega
      · exact h1 a ha

theorem sort_perm : ∀ l : List Nat, (l.foldr insertDesc []).Perm l
  | [] => .refl _
  | x :: l => (insertDesc_perm x _).trans ((sort_perm l).cons x)

theorem sort_desc : ∀ l : List Nat, (l.foldr insertDesc []).Pairwise (fun a b => b ≤ a)
  | [] => .nil
  | x :: l => insertDesc_desc x (sort_desc l)

theorem mem_namesDesc {fs : FS} {n : Nat} : n ∈ namesDesc fs ↔ n ∈ fs.keys := (sort_perm _).mem_iff

theorem namesDesc_desc (fs : FS) : (namesDesc fs).Pairwise (fun a b => b ≤ a) := sort_desc _

theorem hasDone_key {fs : FS} {n : Nat} (h : hasDone fs n = true) : n ∈ fs.keys := by
  rw [AMap.mem_keys_iff]
  unfold hasDone at h
  split at h
  · simp at h
  · rename_i hd; simp [hd]

theorem loadLatest_of {fs : FS} {n : Nat} (h : hasDone fs n = true) (hm : ∀ m, hasDone fs m = true → m ≤ n) :
    loadLatest fs = load fs n := by
  unfold loadLatest
  have hsome : ((namesDesc fs).find? (hasDone fs)).isSome := by
    rw [List.find?_isSome]
    exact ⟨n, mem_namesDesc.mpr (hasDone_key h), h⟩
  obtain ⟨x, hx⟩ := Option.isSome_iff_exists.mp hsome
  rw [hx]
  simp only
  obtain ⟨h1, as, bs, h2, h3⟩ := List.find?_eq_some_iff_append.mp hx
  have hn : n ∈ as ++ x :: bs := h2 ▸ mem_namesDesc.mpr (hasDone_key h)
  have hp := namesDesc_desc fs
  rw [h2] at hp
  have : n ≤ x := by
    rcases List.mem_append.mp hn with hn | hn
    · have := h3 n hn; simp [h] at this
    · rcases List.mem_cons.mp hn with rfl | hn
      · exact Nat.le_refl _
      · exact (List.pairwise_cons.mp (List.pairwise_append.mp hp).2.1).1 n hn
  have := hm x h1
  have : x = n := by omega
  rw [this]

theorem loadLatest_none {fs : FS} (h : ∀ n, hasDone fs n = false) : loadLatest fs = .err .notFound := by
  unfold loadLatest
  rw [List.find?_eq_none.mpr (by intro x _; simp [h x])]

/-- There is a largest complete directory or none. -/
theorem latest_cases (fs : FS) : (∀ n, hasDone fs n = false) ∨ ∃ n, hasDone fs n = true ∧ ∀ m, hasDone fs m = true → m ≤ n := by
  cases hx : (namesDesc fs).find? (hasDone fs) with
  | none =>
    refine .inl fun n => ?_
    cases hn : hasDone fs n with
    | false => rfl
    | true =>
      have := List.find?_eq_none.mp hx n (mem_namesDesc.mpr (hasDone_key hn))
      simp [hn] at this
  | some x =>
    obtain ⟨h1, as, bs, h2, h3⟩ := List.find?_eq_some_iff_append.mp hx
    refine .inr ⟨x, h1, fun n h => ?_⟩
    have hn : n ∈ as ++ x :: bs := h2 ▸ mem_namesDesc.mpr (hasDone_key h)
    have hp := namesDesc_desc fs
    rw [h2] at hp
    rcases List.mem_append.mp hn with hn | hn
    · have := h3 n hn; simp [h] at this
    · rcases List.mem_cons.mp hn with rfl | hn
      · exact Nat.le_refl _
      · exact (List.pairwise_cons.mp (List.pairwise_append.mp hp).2.1).1 n hn

theorem hasDone_congr {fs fs' : FS} {n : Nat} (h : fs'.get? n = fs.get? n) : hasDone fs' n = hasDone fs n := by
  simp [hasDone, h]

theorem load_congr {fs fs' : FS} {n : Nat} (h : fs'.get? n = fs.get? n) : load fs' n = load fs n := by
  simp [load, h]

/-- Directories without `DONE` do not matter. -/
theorem loadLatest_congr {fs fs' : FS} {n : Nat} (h : ∀ m, m ≠ n → fs'.get? m = fs.get? m) (h1 : hasDone fs n = false)
    (h2 : hasDone fs' n = false) : loadLatest fs' = loadLatest fs := by
  have hd : ∀ m, hasDone fs' m = hasDone fs m := by
    intro m
    by_cases hm : m = n
    · subst hm; rw [h1, h2]
    · exact hasDone_congr (h m hm)
  rcases latest_cases fs with hn | ⟨m, hm, hmax⟩
  · rw [loadLatest_none hn, loadLatest_none fun m => by rw [hd, hn]]
  · have : m ≠ n := by rintro rfl; simp [h1] at hm
    rw [loadLatest_of hm hmax, loadLatest_of (by rw [hd]; exact hm) (fun k hk => hmax k (by rw [← hd]; exact hk)), load_congr (h m this)]

/-! ### the operations -/

def FsOp.target : FsOp → Nat
  | .mkdir n => n
  | .create n _ => n
  | .append n _ _ => n
  | .close n _ => n
  | .remove n _ => n
  | .rmdir n => n

theorem onDir_get? (fs : FS) (n m : Nat) (f : Dir → Dir) : (onDir fs n f).get? m = if m = n then (fs.get? n).map f else fs.get? m := by
  unfold onDir
  cases h : fs.get? n with
  | none => by_cases hm : m = n <;> simp [hm, h]
  | some d => simp [AMap.get?_insert]

/-- The effect of an operation on its own directory. -/
def FsOp.on (d : Option Dir) : FsOp → Option Dir
  | .mkdir _ => some (d.getD ⟨none, none, false⟩)
  | .create _ f => d.map (·.create f)
  | .append _ f r => d.map (·.append r f)
  | .close _ f => d.map (·.close f)
  | .remove _ f => d.map (·.remove f)
  | .rmdir _ => none

theorem apply_get? (fs : FS) (op : FsOp) (m : Nat) : (op.apply fs).get? m = if m = op.target then op.on (fs.get? m) else fs.get? m := by
  cases op with
  | mkdir n =>
    simp only [FsOp.apply, FsOp.target, FsOp.on]
    by_cases hc : fs.contains n = true
    · rw [if_pos hc]
      by_cases hm : m = n
      · subst hm
        obtain ⟨d, hd⟩ := Option.isSome_iff_exists.mp hc
        simp [hd]
      · simp [hm]
    · rw [if_neg hc, AMap.get?_insert]
      by_cases hm : m = n
      · subst hm
        have : fs.get? m = none := by simpa [AMap.contains] using hc
        simp [this]
      · simp [hm]
  | rmdir n =>
    simp only [FsOp.apply, FsOp.target, FsOp.on, AMap.get?_erase]
    by_cases hm : m = n <;> simp [hm]
  | create n f => simp only [FsOp.apply, FsOp.target, FsOp.on, onDir_get?]; split <;> simp_all
  | append n f r => simp only [FsOp.apply, FsOp.target, FsOp.on, onDir_get?]; split <;> simp_all
  | close n f => simp only [FsOp.apply, FsOp.target, FsOp.on, onDir_get?]; split <;> simp_all
  | remove n f => simp only [FsOp.apply, FsOp.target, FsOp.on, onDir_get?]; split <;> simp_all

theorem exec_other {ops : List FsOp} {m : Nat} (h : ∀ op ∈ ops, op.target ≠ m) (fs : FS) : (exec fs ops).get? m = fs.get? m := by
  induction ops generalizing fs with
  | nil => rfl
  | cons op ops ih =>
    rw [exec, List.foldl_cons]
    show (exec (op.apply fs) ops).get? m = _
    rw [ih (fun o ho => h o (List.mem_cons_of_mem _ ho)), apply_get?, if_neg (Ne.symm (h op List.mem_cons_self))]

theorem exec_own {ops : List FsOp} {n : Nat} (h : ∀ op ∈ ops, op.target = n) (fs : FS) :
    (exec fs ops).get? n = ops.foldl FsOp.on (fs.get? n) := by
  induction ops generalizing fs with
  | nil => rfl
  | cons op ops ih =>
    rw [exec, List.foldl_cons]
    show (exec (op.apply fs) ops).get? n = _
    rw [ih (fun o ho => h o (List.mem_cons_of_mem _ ho)), apply_get?, if_pos (h op List.mem_cons_self).symm, List.foldl_cons]

theorem exec_append (fs : FS) (a b : List FsOp) : exec fs (a ++ b) = exec (exec fs a) b := by
  simp [exec]

theorem writeOps_target {n : Nat} {t c : List Nat} : ∀ op ∈ writeOps n t c, op.target = n := by
  intro op h
  simp only [writeOps, List.mem_append, List.mem_cons, List.mem_map, List.not_mem_nil, or_false] at h
  rcases h with ((((h | h) | ⟨_, _, h⟩) | (h | h)) | ⟨_, _, h⟩) | (h | h) <;> subst h <;> rfl

/-- Not done yet. -/
def notDone (d : Option Dir) : Prop := ∀ x, d = some x → x.done = false

theorem on_notDone {op : FsOp} {d : Option Dir} (h : notDone d) (hop : ∀ n, op ≠ .create n .done) : notDone (op.on d) := by
  intro x hx
  cases op with
  | mkdir n =>
    simp only [FsOp.on, Option.some.injEq] at hx
    cases d with
    | none => simp at hx; subst hx; rfl
    | some y => simp at hx; subst hx; exact h y rfl
  | rmdir n => simp [FsOp.on] at hx
  | create n f =>
    simp only [FsOp.on, Option.map_eq_some_iff] at hx
    obtain ⟨y, rfl, rfl⟩ := hx
    have := h y rfl
    cases f <;> simp_all [Dir.create]
  | append n f r =>
    simp only [FsOp.on, Option.map_eq_some_iff] at hx
    obtain ⟨y, rfl, rfl⟩ := hx
    have := h y rfl
    cases f <;> simp_all [Dir.append]
  | close n f =>
    simp only [FsOp.on, Option.map_eq_some_iff] at hx
    obtain ⟨y, rfl, rfl⟩ := hx
    have := h y rfl
    cases f <;> simp_all [Dir.close]
  | remove n f =>
    simp only [FsOp.on, Option.map_eq_some_iff] at hx
    obtain ⟨y, rfl, rfl⟩ := hx
    have := h y rfl
    cases f <;> simp_all [Dir.remove]

theorem foldl_notDone {ops : List FsOp} (hop : ∀ op ∈ ops, ∀ n, op ≠ .create n .done) :
    ∀ {d : Option Dir}, notDone d → notDone (ops.foldl FsOp.on d) := by
  induction ops with
  | nil => intro d h; exact h
  | cons op ops ih =>
    intro d h
    exact ih (fun o ho => hop o (List.mem_cons_of_mem _ ho)) (on_notDone h (hop op List.mem_cons_self))

theorem foldl_append_tables (n : Nat) (t : List Nat) (d : Dir) (rs : List Nat) (b : Bool) :
    (t.map (FsOp.append n .tables)).foldl FsOp.on (some { d with tables := some ⟨rs, b⟩ }) =
      some { d with tables := some ⟨rs ++ t, b⟩ } := by
  induction t generalizing rs with
  | nil => simp
  | cons r t ih => simp only [List.map_cons, List.foldl_cons, FsOp.on, Dir.append, Option.map_some]; rw [ih]; simp

theorem foldl_append_chunks (n : Nat) (t : List Nat) (d : Dir) (rs : List Nat) (b : Bool) :
    (t.map (FsOp.append n .chunks)).foldl FsOp.on (some { d with chunks := some ⟨rs, b⟩ }) =
      some { d with chunks := some ⟨rs ++ t, b⟩ } := by
  induction t generalizing rs with
  | nil => simp
  | cons r t ih => simp only [List.map_cons, List.foldl_cons, FsOp.on, Dir.append, Option.map_some]; rw [ih]; simp

/-- What a complete write leaves. -/
theorem write_result (n : Nat) (t c : List Nat) :
    (writeOps n t c).foldl FsOp.on none = some ⟨some ⟨t, true⟩, some ⟨c, true⟩, true⟩ := by
  simp only [writeOps, List.foldl_append, List.foldl_cons, List.foldl_nil]
  have h1 := foldl_append_tables n t ⟨none, none, false⟩ [] false
  have h2 := foldl_append_chunks n c ⟨some ⟨t, true⟩, none, false⟩ [] false
  simp only [List.nil_append] at h1 h2
  simp only [FsOp.on, Option.getD_none, Option.map_some, Dir.create]
  rw [h1]
  simp only [FsOp.on, Option.map_some, Dir.create, Dir.close]
  rw [h2]
  simp [Dir.create, Dir.close]

theorem writeOps_prefix {n : Nat} {t c : List Nat} {k : Nat} (h : k < (writeOps n t c).length) :
    ∀ op ∈ (writeOps n t c).take k, ∀ m, op ≠ .create m .done := by
  intro op hop m heq
  have hsplit : writeOps n t c = ([.mkdir n, .create n .tables] ++ t.map (.append n .tables) ++ [.close n .tables, .create n .chunks] ++
    c.map (.append n .chunks) ++ [.close n .chunks]) ++ [.create n .done] := by simp [writeOps]
  rw [hsplit] at hop h
  rw [List.length_append, List.length_singleton] at h
  rw [List.take_append_of_le_length (by omega)] at hop
  have := List.mem_of_mem_take hop
  subst heq
  simp at this

theorem deleteOps_target {fs : FS} {keep : Nat} {order : Nat → List FileName} {op : FsOp} (h : op ∈ deleteOps fs keep order) :
    op.target ∈ (namesDesc fs).drop keep := by
  simp only [deleteOps, List.mem_flatMap, List.mem_append, List.mem_map, List.mem_singleton] at h
  obtain ⟨v, hv, ⟨f, _, rfl⟩ | rfl⟩ := h
  · exact hv
  · exact hv

theorem namesDesc_nodup (fs : FS) : (namesDesc fs).Nodup := by
  unfold namesDesc
  exact (sort_perm _).nodup_iff.mpr fs.keys_nodup

/-- The largest name is kept. -/
theorem top_kept {fs : FS} {n keep : Nat} (hk : 0 < keep) (hn : n ∈ fs.keys) (hm : ∀ m ∈ fs.keys, m ≤ n) :
    n ∉ (namesDesc fs).drop keep := by
  intro h
  have h1 := mem_namesDesc.mpr hn
  cases hl : namesDesc fs with
  | nil => simp [hl] at h1
  | cons x l =>
    have hp := namesDesc_desc fs
    have hd := namesDesc_nodup fs
    rw [hl] at hp hd h h1
    have hx := hm x (mem_namesDesc.mp (by rw [hl]; exact List.mem_cons_self))
    rcases List.mem_cons.mp h1 with rfl | h1
    · obtain ⟨k, rfl⟩ : ∃ k, keep = k + 1 := ⟨keep - 1, by omega⟩
      rw [List.drop_succ_cons] at h
      exact (List.nodup_cons.mp hd).1 (List.mem_of_mem_drop h)
    · have := (List.pairwise_cons.mp hp).1 n h1
      have : n = x := by omega
      exact (List.nodup_cons.mp hd).1 (this ▸ h1)

theorem exec_keys_sub {ops : List FsOp} {P : Nat → Prop} {fs : FS} (h : ∀ op ∈ ops, P op.target) (hf : ∀ m ∈ fs.keys, P m) :
    ∀ m ∈ (exec fs ops).keys, P m := by
  intro m hm
  by_cases ht : ∀ op ∈ ops, op.target ≠ m
  · rw [AMap.mem_keys_iff, exec_other ht, ← AMap.mem_keys_iff] at hm
    exact hf m hm
  · simp only [ne_eq, Classical.not_forall, Classical.not_not] at ht
    obtain ⟨op, ho, rfl⟩ := ht
    exact h op ho

theorem AfterCrash.get?_isSome {n : Nat} {fs fs' : FS} (h : AfterCrash n fs fs') (m : Nat) : (fs'.get? m).isSome = (fs.get? m).isSome := by
  by_cases hm : m = n
  · subst hm
    have := h.2
    cases h1 : fs.get? m <;> cases h2 : fs'.get? m <;> simp_all
  · rw [h.1 m hm]

theorem AfterCrash.done {n : Nat} {fs fs' : FS} (h : AfterCrash n fs fs') (m : Nat) : hasDone fs' m = hasDone fs m := by
  by_cases hm : m = n
  · subst hm
    have := h.2
    cases h1 : fs.get? m <;> cases h2 : fs'.get? m <;> simp_all [hasDone]
  · exact hasDone_congr (h.1 m hm)

/-- One attempt to save. -/
theorem attempt_effect {fs fs' : FS} {a : Attempt} (hn : ∀ n ∈ fs.keys, n < a.name)
    (h : AfterCrash a.name (exec fs ((a.ops fs).take a.steps)) fs') :
    loadLatest fs' = if a.finished then .ok (a.tables, a.chunks) else loadLatest fs := by
  have hnew : fs.get? a.name = none := by
    rw [← AMap.not_mem_keys_iff]
    intro hm
    have := hn _ hm
    omega
  have hnd : hasDone fs a.name = false := by simp [hasDone, hnew]
  by_cases hk : a.keep = 0
  · have hfin : a.finished = false := by simp [Attempt.finished, hk]
    rw [if_neg (by simp [hfin])]
    simp only [Attempt.ops, if_pos hk, List.take_nil, exec, List.foldl_nil] at h
    exact loadLatest_congr h.1 hnd (by rw [h.done, hnd])
  · simp only [Attempt.ops, if_neg hk] at h
    by_cases hs : (writeOps a.name a.tables a.chunks).length ≤ a.steps
    · have hfin : a.finished = true := by simp [Attempt.finished]; omega
      rw [if_pos hfin]
      generalize hw : exec fs (writeOps a.name a.tables a.chunks) = fw at h
      have hwn : fw.get? a.name = some ⟨some ⟨a.tables, true⟩, some ⟨a.chunks, true⟩, true⟩ := by
        rw [← hw, exec_own writeOps_target, hnew, write_result]
      have hwk : ∀ m ∈ fw.keys, m ≤ a.name := by
        rw [← hw]
        refine exec_keys_sub (fun op ho => ?_) (fun m hm => Nat.le_of_lt (hn m hm))
        rw [writeOps_target op ho]
        exact Nat.le_refl _
      rw [List.take_append, List.take_of_length_le hs, exec_append, hw] at h
      generalize hd : (deleteOps fw a.keep a.order).take (a.steps - (writeOps a.name a.tables a.chunks).length) = ds at h
      have hdt : ∀ op ∈ ds, op.target ∈ (namesDesc fw).drop a.keep := by
        intro op ho
        rw [← hd] at ho
        exact deleteOps_target (List.mem_of_mem_take ho)
      have hown : (exec fw ds).get? a.name = some ⟨some ⟨a.tables, true⟩, some ⟨a.chunks, true⟩, true⟩ := by
        rw [exec_other, hwn]
        intro op ho heq
        have := hdt op ho
        rw [heq] at this
        exact top_kept (by omega) ((AMap.mem_keys_iff _ _).mpr (by simp [hwn])) hwk this
      have hkeys : ∀ m ∈ (exec fw ds).keys, m ≤ a.name := by
        refine exec_keys_sub (fun op ho => ?_) hwk
        exact hwk _ (mem_namesDesc.mp (List.mem_of_mem_drop (hdt op ho)))
      have hfs : fs'.get? a.name = some ⟨some ⟨a.tables, true⟩, some ⟨a.chunks, true⟩, true⟩ := by
        have h2 := h.2
        rw [hown] at h2
        cases hx : fs'.get? a.name with
        | none => simp [hx] at h2
        | some d =>
          obtain ⟨dt, dc, dd⟩ := d
          simp only [hx] at h2
          obtain ⟨h3, h4, h5⟩ := h2
          cases dt <;> cases dc <;> simp_all [SameFile]
      have hdone : hasDone fs' a.name = true := by simp [hasDone, hfs]
      rw [loadLatest_of hdone]
      · simp [load, hfs]
      · intro m hm
        apply hkeys
        rw [AMap.mem_keys_iff, ← h.get?_isSome m, ← AMap.mem_keys_iff]
        exact hasDone_key hm
    · have hfin : a.finished = false := by simp [Attempt.finished]; omega
      rw [if_neg (by simp [hfin])]
      rw [List.take_append_of_le_length (by omega)] at h
      have hw : ∀ op ∈ (writeOps a.name a.tables a.chunks).take a.steps, op.target = a.name :=
        fun op ho => writeOps_target op (List.mem_of_mem_take ho)
      refine loadLatest_congr (n := a.name) (fun m hm => ?_) hnd ?_
      · rw [h.1 m hm, exec_other]
        intro op ho heq
        rw [hw op ho] at heq
        exact hm heq.symm
      · rw [h.done]
        have := foldl_notDone (writeOps_prefix (by omega : a.steps < (writeOps a.name a.tables a.chunks).length)) (d := fs.get? a.name)
          (by simp [notDone, hnew])
        rw [← exec_own hw] at this
        unfold hasDone
        split
        · rfl
        · rename_i d hd
          exact this d hd

/-! ### what is kept -/

theorem countP_desc {l : List Nat} (hp : l.Pairwise (fun a b => b ≤ a)) (hd : l.Nodup) {m k : Nat} :
    m ∈ l.take k ↔ m ∈ l ∧ l.countP (m < ·) < k := by
  induction l generalizing k with
  | nil => simp
  | cons x l ih =>
    have hx := List.pairwise_cons.mp hp
    have hn := List.nodup_cons.mp hd
    cases k with
    | zero => simp
    | succ k =>
      rw [List.take_succ_cons, List.mem_cons, ih hx.2 hn.2, List.countP_cons, List.mem_cons]
      by_cases hm : m = x
      · subst hm
        have : l.countP (m < ·) = 0 := by
          rw [List.countP_eq_zero]
          intro a ha
          have := hx.1 a ha
          simp; omega
        simp [this]
      · constructor
        · rintro (h | ⟨h1, h2⟩)
          · exact absurd h hm
          · have := hx.1 m h1
            have hlt : m < x := by omega
            exact ⟨.inr h1, by simp [hlt]; omega⟩
        · rintro ⟨h1, h2⟩
          rcases h1 with h1 | h1
          · exact absurd h1 hm
          · have := hx.1 m h1
            have hlt : m < x := by omega
            simp [hlt] at h2
            exact .inr ⟨h1, by omega⟩

theorem deletes_keys (fs : FS) (vs : List Nat) (order : Nat → List FileName) (m : Nat) :
    m ∈ (exec fs (vs.flatMap fun v => (order v).map (.remove v) ++ [.rmdir v])).keys ↔ m ∈ fs.keys ∧ m ∉ vs := by
  induction vs generalizing fs with
  | nil => simp [exec]
  | cons v vs ih =>
    rw [List.flatMap_cons, exec_append, ih]
    have : m ∈ (exec fs ((order v).map (.remove v) ++ [.rmdir v])).keys ↔ m ∈ fs.keys ∧ m ≠ v := by
      rw [exec_append]
      show m ∈ (FsOp.apply (exec fs _) (.rmdir v)).keys ↔ _
      rw [AMap.mem_keys_iff, apply_get?]
      by_cases hm : m = v
      · simp [hm, FsOp.target, FsOp.on]
      · rw [if_neg (by simpa [FsOp.target] using hm), exec_other, ← AMap.mem_keys_iff]
        · simp [hm]
        · intro op ho
          simp only [List.mem_map] at ho
          obtain ⟨f, _, rfl⟩ := ho
          exact Ne.symm hm
    rw [this, List.mem_cons]
    grind

theorem write_keys {fs : FS} {n : Nat} {t c : List Nat} (hn : n ∉ fs.keys) (m : Nat) :
    m ∈ (exec fs (writeOps n t c)).keys ↔ m = n ∨ m ∈ fs.keys := by
  by_cases hm : m = n
  · subst hm
    rw [AMap.mem_keys_iff, exec_own writeOps_target, (AMap.not_mem_keys_iff _ _).mp hn, write_result]
    simp
  · rw [AMap.mem_keys_iff, exec_other, ← AMap.mem_keys_iff]
    · simp [hm]
    · intro op ho
      rw [writeOps_target op ho]
      exact Ne.symm hm

end Verif.Ckpt
