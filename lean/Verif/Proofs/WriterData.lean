import Verif.Spec.Writer
import Verif.Proofs.Rows
import Verif.Props.C30_C31_Trajectories
/-
What the chunks and the items of the old writer hold.
-/
namespace Verif

/-- The chunk holds the steps `rows`, each of which has `m` tensors. -/
structure ChunkData.Has (c : ChunkData) (m : Nat) (rows : List Timestep) : Prop where
  ne : rows ≠ []
  len : c.rangeLength = rows.length
  cols : c.tensors.length = m
  col : ∀ i < m, ∃ d s ts, unpackChunkColumn c i = .ok (Tensor.stack d s ts) ∧ (∀ t ∈ ts, Tensor.Is d s t) ∧ ts.map some = rows.map (·[i]?)

theorem mapM_some_of {α β : Type} (f : α → Option β) : ∀ (l : List α) (r : List β), l.mapM f = some r → r.map some = l.map f
  | [], r, h => by simp at h; subst h; rfl
  | a :: l, r, h => by
    rw [List.mapM_cons] at h
    cases ha : f a with
    | none => simp [ha] at h
    | some b =>
      cases hl : l.mapM f with
      | none => simp [ha, hl] at h
      | some bs =>
        simp [ha, hl] at h
        subst h
        rw [List.map_cons, List.map_cons, ha, mapM_some_of f l bs hl]

theorem batchColumn_ok {buffer : List Timestep} {m i : Nat} {t : Tensor} (hb : ∀ step ∈ buffer, step.length = m ∧ ∀ t ∈ step, t.WF)
    (h : batchColumn buffer i = .ok t) : ∃ d s ts, t = Tensor.stack d s ts ∧ (∀ u ∈ ts, Tensor.Is d s u) ∧ ts.map some = buffer.map (·[i]?) := by
  unfold batchColumn at h
  cases hm : buffer.mapM (·[i]?) with
  | none => rw [hm] at h; cases h
  | some ts =>
    rw [hm] at h
    dsimp only at h
    have hts := mapM_some_of _ _ _ hm
    have hwf : ∀ u ∈ ts, u.WF := by
      intro u hu
      have : some u ∈ buffer.map (·[i]?) := by rw [← hts]; exact List.mem_map.mpr ⟨u, hu, rfl⟩
      obtain ⟨step, hs, he⟩ := List.mem_map.mp this
      exact (hb step hs).2 u (List.mem_of_getElem? he)
    split at h
    · cases h
    · rename_i hany
      cases ts with
      | nil => simp [Tensor.concat] at h
      | cons t0 rest =>
        have hshape : ∀ u ∈ t0 :: rest, u.shape = t0.shape := by
          intro u hu
          simp only [List.any_eq_true, not_exists, not_and] at hany
          have := hany u hu
          simpa using this
        have hdt : ∀ u ∈ t0 :: rest, u.dtype = t0.dtype := by
          simp only [List.map_cons, Tensor.concat] at h
          split at h
          · cases h
          · split at h
            · cases h
            · rename_i hd
              intro u hu
              rcases List.mem_cons.mp hu with rfl | hu
              · rfl
              · simp only [List.any_eq_true, not_exists, not_and, List.mem_map, decide_eq_true_eq] at hd
                have := hd u.addBatchDim ⟨u, hu, rfl⟩
                simpa [Tensor.addBatchDim] using this
        have his : ∀ u ∈ t0 :: rest, Tensor.Is t0.dtype t0.shape u := fun u hu => ⟨hwf u hu, hdt u hu, hshape u hu⟩
        rw [Tensor.concat_batch his (by simp)] at h
        cases h
        exact ⟨_, _, _, rfl, his, hts⟩

theorem batchColumns_ok {buffer : List Timestep} : ∀ (is : List Nat) (ts : List Tensor), batchColumns buffer is = .ok ts →
    ts.length = is.length ∧ ∀ (j i : Nat), is[j]? = some i → ∃ t, ts[j]? = some t ∧ batchColumn buffer i = .ok t
  | [], ts, h => by simp [batchColumns] at h; subst h; simp
  | i :: is, ts, h => by
    unfold batchColumns at h
    cases h1 : batchColumn buffer i with
    | err e => rw [h1] at h; cases h
    | died => rw [h1] at h; cases h
    | ok t =>
      rw [h1] at h
      dsimp only at h
      cases h2 : batchColumns buffer is with
      | err e => rw [h2] at h; cases h
      | died => rw [h2] at h; cases h
      | ok ts' =>
        rw [h2] at h
        cases h
        obtain ⟨g1, g2⟩ := batchColumns_ok is ts' h2
        refine ⟨by simp [g1], ?_⟩
        intro j i' hj
        cases j with
        | zero => simp at hj; subst hj; exact ⟨t, rfl, h1⟩
        | succ j => exact g2 j i' (by simpa using hj)

theorem deltaEncodeList_ok : ∀ (ts es : List Tensor), Tensor.deltaEncodeList ts true = .ok es →
    es.length = ts.length ∧ ∀ (j : Nat) (t : Tensor), ts[j]? = some t → ∃ e, es[j]? = some e ∧ t.deltaEncode true = .ok e
  | [], es, h => by simp [Tensor.deltaEncodeList] at h; subst h; simp
  | t :: ts, es, h => by
    unfold Tensor.deltaEncodeList at h
    cases h1 : t.deltaEncode true with
    | err e => rw [h1] at h; cases h
    | died => rw [h1] at h; cases h
    | ok e =>
      rw [h1] at h
      dsimp only at h
      cases h2 : Tensor.deltaEncodeList ts true with
      | err e => rw [h2] at h; cases h
      | died => rw [h2] at h; cases h
      | ok es' =>
        rw [h2] at h
        cases h
        obtain ⟨g1, g2⟩ := deltaEncodeList_ok ts es' h2
        refine ⟨by simp [g1], ?_⟩
        intro j u hj
        cases j with
        | zero => simp at hj; subst hj; exact ⟨e, rfl, h1⟩
        | succ j => exact g2 j u (by simpa using hj)

theorem Writer.makeChunk_ok {w : Writer} {m : Nat} {ch : ChunkData} (hb : ∀ step ∈ w.buffer, step.length = m ∧ ∀ t ∈ step, t.WF)
    (h : w.makeChunk = .ok ch) : ch.key = w.nextKey ∧ ch.Has m w.buffer := by
  unfold makeChunk at h
  cases hbuf : w.buffer with
  | nil => rw [hbuf] at h; cases h
  | cons first rest =>
    have hfirst : first.length = m := (hb first (by rw [hbuf]; exact List.mem_cons_self)).1
    rw [hbuf] at h
    dsimp only at h
    rw [← hbuf] at h
    cases h1 : batchColumns w.buffer (List.range first.length) with
    | err e => rw [h1] at h; cases h
    | died => rw [h1] at h; cases h
    | ok ts =>
      rw [h1] at h
      dsimp only at h
      obtain ⟨g1, g2⟩ := batchColumns_ok _ _ h1
      rw [List.length_range, hfirst] at g1
      have hcol : ∀ i < m, ∃ d s us, ts[i]? = some (Tensor.stack d s us) ∧ (∀ u ∈ us, Tensor.Is d s u) ∧ us ≠ [] ∧
          us.map some = w.buffer.map (·[i]?) := by
        intro i hi
        obtain ⟨t, ht, hc⟩ := g2 i i (by rw [List.getElem?_range (by omega)])
        obtain ⟨d, s, us, rfl, h3, h4⟩ := batchColumn_ok hb hc
        refine ⟨d, s, us, ht, h3, ?_, h4⟩
        rintro rfl
        rw [hbuf] at h4
        simp at h4
      rw [← hbuf]
      have hlen : ∀ (ts' : List Tensor) (delta : Bool), ChunkData.rangeLength ⟨w.nextKey, some ⟨w.episode, w.index, w.index + w.buffer.length - 1, false⟩, ts', delta⟩ =
          w.buffer.length := by
        intro ts' delta
        simp only [ChunkData.rangeLength]
        omega
      have hne : w.buffer ≠ [] := by rw [hbuf]; simp
      cases hd : w.delta with
      | false =>
        rw [hd] at h
        simp only [Bool.false_eq_true, if_false] at h
        cases h
        refine ⟨rfl, hne, hlen _ _, g1, ?_⟩
        intro i hi
        obtain ⟨d, s, us, h1, h2, _, h3⟩ := hcol i hi
        refine ⟨d, s, us, ?_, h2, h3⟩
        simp only [unpackChunkColumn, g1, Int.toNat_natCast, h1, Bool.false_eq_true, if_false]
        rw [if_neg (by omega)]
      | true =>
        rw [hd] at h
        simp only [if_true] at h
        cases he : Tensor.deltaEncodeList ts true with
        | err e => rw [he] at h; cases h
        | died => rw [he] at h; cases h
        | ok es =>
          rw [he] at h
          cases h
          obtain ⟨k1, k2⟩ := deltaEncodeList_ok _ _ he
          refine ⟨rfl, hne, hlen _ _, by rw [← g1]; exact k1, ?_⟩
          intro i hi
          obtain ⟨d, s, us, h1, h2, h4, h3⟩ := hcol i hi
          obtain ⟨e, he1, he2⟩ := k2 i _ h1
          obtain ⟨e', hd1, hd2⟩ := Tensor.delta_stack h2 h4
          rw [he2] at hd1
          cases hd1
          refine ⟨d, s, us, ?_, h2, h3⟩
          simp only [unpackChunkColumn, Int.toNat_natCast, he1, if_true, hd2]
          rw [if_neg (by omega)]

/-! ### Items -/

/-- The slice, of column `i`, picks the steps `p` out of one of the blocks. -/
def SlicePicks (bs : List (Key × List Timestep)) (i : Nat) (sl : Slice) (p : List Timestep) : Prop :=
  sl.index = i ∧ ∃ rows off len, (sl.chunk, rows) ∈ bs ∧ sl.offset = Int.ofNat off ∧ sl.length = Int.ofNat len ∧ off + len ≤ rows.length ∧
    p = (rows.drop off).take len

/-- The trajectory picks the steps `want` out of the blocks. -/
def Picks (bs : List (Key × List Timestep)) (traj : FlatTraj) (m : Nat) (want : List Timestep) : Prop :=
  traj.length = m ∧ ∃ parts : List (List Timestep), parts.flatten = want ∧ (∀ p ∈ parts, p ≠ []) ∧
    ∀ (i : Nat) (col : Column), traj[i]? = some col → col.squeeze = false ∧ col.slices.length = parts.length ∧
      ∀ (j : Nat) (sl : Slice) (p : List Timestep), col.slices[j]? = some sl → parts[j]? = some p → SlicePicks bs i sl p

theorem Picks.mono {bs bs' : List (Key × List Timestep)} {traj : FlatTraj} {m : Nat} {want : List Timestep}
    (h : Picks bs traj m want) (hb : ∀ k rows, (k, rows) ∈ bs → ∃ more, (k, rows ++ more) ∈ bs') : Picks bs' traj m want := by
  obtain ⟨h0, parts, h1, h2, h3⟩ := h
  refine ⟨h0, parts, h1, h2, fun i col hc => ?_⟩
  obtain ⟨h4, h5, h6⟩ := h3 i col hc
  refine ⟨h4, h5, fun j sl p hj hp => ?_⟩
  obtain ⟨g1, rows, off, len, g2, g3, g4, g5, rfl⟩ := h6 j sl p hj hp
  obtain ⟨more, hm⟩ := hb _ _ g2
  refine ⟨g1, rows ++ more, off, len, hm, g3, g4, by rw [List.length_append]; omega, ?_⟩
  rw [List.drop_append_of_le_length (by omega), List.take_append_of_le_length (by rw [List.length_drop]; omega)]

theorem Picks.keys {bs : List (Key × List Timestep)} {traj : FlatTraj} {m : Nat} {want : List Timestep}
    (h : Picks bs traj m want) : ∀ k ∈ getChunkKeys traj, k ∈ bs.map Prod.fst := by
  intro k hk
  obtain ⟨col, hc, sl, hsl, rfl⟩ := ((C30_chunk_keys traj).2.1 k).mp hk
  obtain ⟨i, hi⟩ := List.getElem?_of_mem hc
  obtain ⟨j, hj⟩ := List.getElem?_of_mem hsl
  obtain ⟨_, parts, _, _, h3⟩ := h
  obtain ⟨_, h2, h3⟩ := h3 i col hi
  have hlt : j < parts.length := by rw [← h2]; exact (List.getElem?_eq_some_iff.mp hj).1
  obtain ⟨_, rows, off, len, g2, _⟩ := h3 j sl parts[j] hj (List.getElem?_eq_getElem hlt)
  exact List.mem_map.mpr ⟨_, g2, rfl⟩

/-- What a trajectory picks out of the blocks is what it shows, if the blocks are held by chunks. -/
theorem Picks.shows {chunks : List ChunkData} {ρ : Key → List Timestep} {traj : FlatTraj} {m : Nat} {want : List Timestep}
    (h : Picks (chunks.map fun c => (c.key, ρ c.key)) traj m want) (hm : ∀ c ∈ chunks, c.Has m (ρ c.key))
    {chs : List ChunkData} (hk : chs.map ChunkData.key = getChunkKeys traj) (hs : ∀ c ∈ chs, c ∈ chunks) : ShowsSteps traj chs m want := by
  obtain ⟨h0, parts, h1, h2, h3⟩ := h
  refine ⟨h0, parts, h1, h2, fun i col hc => ?_⟩
  have hi : i < m := by rw [← h0]; exact (List.getElem?_eq_some_iff.mp hc).1
  obtain ⟨h4, h5, h6⟩ := h3 i col hc
  refine ⟨h4, h5, fun j sl p hj hp => ?_⟩
  obtain ⟨g1, rows, off, len, g2, g3, g4, g5, rfl⟩ := h6 j sl p hj hp
  obtain ⟨c0, hc0, he⟩ := List.mem_map.mp g2
  have hmem : sl.chunk ∈ getChunkKeys traj := ((C30_chunk_keys traj).2.1 _).mpr ⟨col, List.mem_of_getElem? hc, sl, List.mem_of_getElem? hj, rfl⟩
  rw [← hk] at hmem
  obtain ⟨c, hcm, hck⟩ := List.mem_map.mp hmem
  have hrows : rows = ρ c.key := by
    have := (Prod.mk.inj he)
    rw [hck, ← this.1]; exact this.2.symm
  obtain ⟨d, s, ts, u1, u2, u3⟩ := (hm c (hs c hcm)).col i hi
  rw [← hrows] at u3
  have hlen : ts.length = rows.length := by simpa using congrArg List.length u3
  refine ⟨d, s, (ts.drop off).take len, ⟨c, ts, off, len, hcm, hck, by rw [g1]; exact u1, u2, g3, g4, by omega, rfl⟩, ?_⟩
  rw [List.map_take, List.map_drop, u3, List.map_take, List.map_drop]

/-- How the rows from `o` on are cut. -/
def partsFrom (bs : List (Key × List Timestep)) (o : Nat) : List (List Timestep) :=
  match bs with
  | [] => []
  | b :: rest => b.2.drop o :: rest.map Prod.snd

theorem timestepSlices_picks (col : Nat) : ∀ (bs : List (Key × List Timestep)) (o r : Nat), 0 < r → (∃ b rest, bs = b :: rest ∧ o < b.2.length) →
    (∀ b ∈ bs, b.2 ≠ []) → o + r = (bs.flatMap Prod.snd).length →
    ∃ ss, timestepSlices col (bs.map fun b => (b.1, ((b.2.length : Nat) : Int))) (o : Nat) (r : Nat) = some ss ∧
      ss.length = (partsFrom bs o).length ∧
      ∀ (j : Nat) (sl : Slice) (p : List Timestep), ss[j]? = some sl → (partsFrom bs o)[j]? = some p → SlicePicks bs col sl p
  | [], o, r, _, h, _, _ => by obtain ⟨b, rest, h, _⟩ := h; cases h
  | b :: rest, o, r, hr, ho, hne, hlen => by
    obtain ⟨b', rest', he, ho⟩ := ho
    cases he
    rw [List.flatMap_cons, List.length_append] at hlen
    have hr' : (0 : Int) < (r : Nat) := by omega
    have hpick : SlicePicks (b :: rest) col ⟨b.1, (o : Nat), ((b.2.length - o : Nat) : Int), col⟩ (b.2.drop o) :=
      ⟨rfl, b.2, o, b.2.length - o, List.mem_cons_self, rfl, rfl, by omega, by
        rw [List.take_of_length_le (by rw [List.length_drop]; omega)]⟩
    cases rest with
    | nil =>
      simp only [List.flatMap_nil, List.length_nil] at hlen
      have hmin : min (((b.2.length : Nat) : Int) - (o : Nat)) (r : Nat) = ((b.2.length - o : Nat) : Int) := by omega
      have hz : ((r : Nat) : Int) - ((b.2.length - o : Nat) : Int) = 0 := by omega
      refine ⟨[⟨b.1, (o : Nat), ((b.2.length - o : Nat) : Int), col⟩], ?_, rfl, ?_⟩
      · simp only [List.map_cons, List.map_nil, timestepSlices, hr', if_true, hmin, hz]
      · intro j sl p hj hp
        cases j with
        | zero => simp [partsFrom] at hj hp; subst hj; subst hp; exact hpick
        | succ j => simp at hj
    | cons b2 rest2 =>
      obtain ⟨ss, h1, h2, h3⟩ := timestepSlices_picks col (b2 :: rest2) 0 (r - (b.2.length - o)) (by
          have := List.length_pos_iff.mpr (hne b2 (by simp))
          rw [List.flatMap_cons, List.length_append] at hlen
          omega) ⟨b2, rest2, rfl, List.length_pos_iff.mpr (hne b2 (by simp))⟩ (fun x hx => hne x (List.mem_cons_of_mem _ hx)) (by omega)
      have hpos : 0 < ((b2 :: rest2).flatMap Prod.snd).length := by
        have := List.length_pos_iff.mpr (hne b2 (by simp))
        rw [List.flatMap_cons, List.length_append]
        omega
      have hmin : min (((b.2.length : Nat) : Int) - (o : Nat)) (r : Nat) = ((b.2.length - o : Nat) : Int) := by omega
      have hsub : ((r : Nat) : Int) - ((b.2.length - o : Nat) : Int) = ((r - (b.2.length - o) : Nat) : Int) := by omega
      have hparts : partsFrom (b :: b2 :: rest2) o = b.2.drop o :: partsFrom (b2 :: rest2) 0 := by simp [partsFrom]
      rw [hparts]
      refine ⟨⟨b.1, (o : Nat), ((b.2.length - o : Nat) : Int), col⟩ :: ss, ?_, by simp [h2], ?_⟩
      · rw [List.map_cons, timestepSlices]
        simp only [hr', if_true, hmin, hsub]
        have : ((0 : Nat) : Int) = 0 := rfl
        rw [this] at h1
        rw [h1]
      · intro j sl p hj hp
        cases j with
        | zero => simp at hj hp; subst hj; subst hp; exact hpick
        | succ j =>
          obtain ⟨g1, rows, off, len, g2, g3⟩ := h3 j sl p (by simpa using hj) (by simpa using hp)
          exact ⟨g1, rows, off, len, List.mem_cons_of_mem _ g2, g3⟩

theorem flatTimestep_picks {bs : List (Key × List Timestep)} {m o n : Nat} (hn : 0 < n) (ho : ∃ b rest, bs = b :: rest ∧ o < b.2.length)
    (hne : ∀ b ∈ bs, b.2 ≠ []) (hlen : o + n = (bs.flatMap Prod.snd).length) :
    ∃ traj, flatTimestepTrajectory (bs.map fun b => (b.1, ((b.2.length : Nat) : Int))) m (o : Nat) (n : Nat) = some traj ∧
      Picks bs traj m ((bs.flatMap Prod.snd).drop o) := by
  have h : ∀ col, ∃ c : Column, (timestepSlices col (bs.map fun b => (b.1, ((b.2.length : Nat) : Int))) (o : Nat) (n : Nat)).map
      (fun ss => (⟨ss, false⟩ : Column)) = some c ∧ c.squeeze = false ∧ c.slices.length = (partsFrom bs o).length ∧
        ∀ (j : Nat) (sl : Slice) (p : List Timestep), c.slices[j]? = some sl → (partsFrom bs o)[j]? = some p → SlicePicks bs col sl p := by
    intro col
    obtain ⟨ss, h1, h2⟩ := timestepSlices_picks col bs o n hn ho hne hlen
    exact ⟨⟨ss, false⟩, by rw [h1]; rfl, rfl, h2⟩
  let g : Nat → Column := fun col => Classical.choose (h col)
  have hg := fun col => Classical.choose_spec (h col)
  refine ⟨(List.range m).map g, mapM_some_map _ g (fun col => (hg col).1) _, by simp, partsFrom bs o, ?_, ?_, ?_⟩
  · obtain ⟨b, rest, rfl, hb⟩ := ho
    simp only [partsFrom, List.flatten_cons, List.flatMap_cons]
    rw [List.drop_append_of_le_length (by omega), List.flatMap_def]
  · obtain ⟨b, rest, rfl, hb⟩ := ho
    intro p hp
    simp only [partsFrom, List.mem_cons, List.mem_map] at hp
    rcases hp with rfl | ⟨x, hx, rfl⟩
    · intro h0
      have := congrArg List.length h0
      simp at this
      omega
    · exact hne x (List.mem_cons_of_mem _ hx)
  · intro i col hc
    rw [List.getElem?_map, Option.map_eq_some_iff] at hc
    obtain ⟨j, hj, rfl⟩ := hc
    have : j = i := by
      rw [List.getElem?_range (by have := (List.getElem?_eq_some_iff.mp hj).1; simpa using this)] at hj
      simpa using hj.symm
    subst this
    exact (hg j).2

theorem coverBack_spec {ρ : Key → List Timestep} : ∀ (cs : List ChunkData) (r : Int), (∀ c ∈ cs, c.rangeLength = (ρ c.key).length) →
    r ≤ (cs.map ChunkData.rangeLength).sum →
    ∃ pre post, cs = pre ++ post ∧ (coverBack cs r).1 = pre.map (fun c => (c.key, c.rangeLength)) ∧
      (coverBack cs r).2 = r - (pre.map ChunkData.rangeLength).sum ∧ (coverBack cs r).2 ≤ 0 ∧ (r ≤ 0 → pre = []) ∧
      (0 < r → ∃ pre' c, pre = pre' ++ [c] ∧ 0 < r - (pre'.map ChunkData.rangeLength).sum)
  | [], r, _, h => by
    refine ⟨[], [], rfl, rfl, by simp [coverBack], by simpa [coverBack] using h, fun _ => rfl, ?_⟩
    intro hr
    simp at h
    omega
  | c :: cs, r, hc, h => by
    unfold coverBack
    by_cases hr : 0 < r
    · rw [if_pos hr]
      simp only [List.map_cons, List.sum_cons] at h
      obtain ⟨pre, post, h1, h2, h3, h4, h5, h6⟩ := coverBack_spec cs (r - c.rangeLength) (fun x hx => hc x (List.mem_cons_of_mem _ hx)) (by omega)
      refine ⟨c :: pre, post, by rw [h1]; rfl, by simp [h2], by simp only [List.map_cons, List.sum_cons]; omega, h4, by omega, fun _ => ?_⟩
      by_cases hr2 : 0 < r - c.rangeLength
      · obtain ⟨pre', c', rfl, h7⟩ := h6 hr2
        exact ⟨c :: pre', c', rfl, by simp only [List.map_cons, List.sum_cons]; omega⟩
      · have := h5 (by omega)
        subst this
        exact ⟨[], c, rfl, by simpa using hr⟩
    · rw [if_neg hr]
      exact ⟨[], c :: cs, rfl, rfl, by simp, by simp; omega, fun _ => rfl, fun h => absurd h hr⟩

/-- The blocks that items can refer to: the chunks and the buffer. -/
def Writer.blocks (w : Writer) (ρ : Key → List Timestep) : List (Key × List Timestep) :=
  w.chunks.map (fun c => (c.key, ρ c.key)) ++ if w.buffer = [] then [] else [(w.nextKey, w.buffer)]

theorem Writer.trajectory_picks {w : Writer} {ρ : Key → List Timestep} {m n : Nat} {H dropped : List Timestep} (hn : 0 < n) (hn' : (n : Int) ≤ w.held)
    (hH : H = dropped ++ w.chunks.flatMap (fun c => ρ c.key) ++ w.buffer) (hhas : ∀ c ∈ w.chunks, c.Has m (ρ c.key))
    (hbuf : ∀ step ∈ w.buffer, step.length = m) :
    n ≤ H.length ∧ ∃ traj, w.trajectory n = some traj ∧ Picks (w.blocks ρ) traj m (lastSteps n H) := by
  have hsum : ∀ cs : List ChunkData, (∀ c ∈ cs, c ∈ w.chunks) → (cs.map ChunkData.rangeLength).sum = ((cs.flatMap fun c => ρ c.key).length : Nat) := by
    intro cs
    induction cs with
    | nil => intro _; rfl
    | cons c cs ih =>
      intro hcs
      rw [List.map_cons, List.sum_cons, List.flatMap_cons, List.length_append, ih fun x hx => hcs x (List.mem_cons_of_mem _ hx),
        (hhas c (hcs c List.mem_cons_self)).len]
      omega
  have hrev : (w.chunks.reverse.map ChunkData.rangeLength).sum = (w.chunks.map ChunkData.rangeLength).sum := by
    rw [List.map_reverse, List.sum_reverse]
  simp only [held] at hn'
  have hle : n ≤ H.length := by
    rw [hH, List.length_append, List.length_append]
    have := hsum w.chunks fun c hc => hc
    omega
  refine ⟨hle, ?_⟩
  obtain ⟨pre, post, h1, h2, h3, h4, h5, h6⟩ := coverBack_spec (ρ := ρ) w.chunks.reverse ((n : Int) - w.buffer.length)
    (fun c hc => (hhas c (List.mem_reverse.mp hc)).len) (by rw [hrev]; omega)
  have hchunks : w.chunks = post.reverse ++ pre.reverse := by
    rw [← List.reverse_append, ← h1, List.reverse_reverse]
  have hpre : ∀ c ∈ pre.reverse, c ∈ w.chunks := fun c hc => by rw [hchunks]; exact List.mem_append_right _ hc
  have hsumpre : (pre.map ChunkData.rangeLength).sum = ((pre.reverse.flatMap fun c => ρ c.key).length : Nat) := by
    rw [← hsum pre.reverse hpre, List.map_reverse, List.sum_reverse]
  let bs : List (Key × List Timestep) := pre.reverse.map (fun c => (c.key, ρ c.key)) ++ if w.buffer = [] then [] else [(w.nextKey, w.buffer)]
  have hflat : bs.flatMap Prod.snd = (pre.reverse.flatMap fun c => ρ c.key) ++ w.buffer := by
    simp only [bs, List.flatMap_append, List.flatMap_map]
    congr 1
    split
    · rename_i he; rw [he]; rfl
    · simp
  have hnebs : ∀ b ∈ bs, b.2 ≠ [] := by
    intro b hb
    rcases List.mem_append.mp hb with hb | hb
    · obtain ⟨c, hc, rfl⟩ := List.mem_map.mp hb
      exact (hhas c (hpre c hc)).ne
    · split at hb
      · simp at hb
      · rename_i hne
        simp only [List.mem_singleton] at hb
        subst hb
        exact hne
  -- the offset
  obtain ⟨o, ho⟩ : ∃ o : Nat, (o : Int) = -(coverBack w.chunks.reverse ((n : Int) - w.buffer.length)).2 := ⟨_, Int.toNat_of_nonneg (by omega)⟩
  have hlen : o + n = (bs.flatMap Prod.snd).length := by
    rw [hflat, List.length_append]
    omega
  have hfirst : ∃ b rest, bs = b :: rest ∧ o < b.2.length := by
    by_cases hr : 0 < (n : Int) - w.buffer.length
    · obtain ⟨pre', c, rfl, h7⟩ := h6 hr
      refine ⟨(c.key, ρ c.key), pre'.reverse.map (fun c => (c.key, ρ c.key)) ++ if w.buffer = [] then [] else [(w.nextKey, w.buffer)], ?_, ?_⟩
      · simp [bs]
      · have hc := (hhas c (hpre c (by simp))).len
        rw [List.map_append, List.sum_append, List.map_cons, List.map_nil, List.sum_cons, List.sum_nil] at h3
        show o < (ρ c.key).length
        omega
    · have := h5 (by omega)
      subst this
      have hne : w.buffer ≠ [] := by
        intro he
        rw [he] at hr
        simp at hr
        omega
      refine ⟨(w.nextKey, w.buffer), [], by simp [bs, hne], ?_⟩
      show o < w.buffer.length
      simp only [List.map_nil, List.sum_nil] at h3
      omega
  have hcols : w.numColumns = some m := by
    unfold numColumns
    cases hb : w.buffer with
    | cons b rest => exact congrArg some (hbuf b (by rw [hb]; exact List.mem_cons_self))
    | nil =>
      cases hc : w.chunks with
      | nil => rw [hb, hc] at hn'; simp at hn'; omega
      | cons c cs => exact congrArg some (hhas c (by rw [hc]; exact List.mem_cons_self)).cols
  obtain ⟨traj, ht, hp⟩ := flatTimestep_picks (m := m) hn hfirst hnebs hlen
  have hlist : (coverBack w.chunks.reverse ((n : Int) - w.buffer.length)).1.reverse ++
      (if w.buffer = [] then [] else [(w.nextKey, (w.buffer.length : Int))]) = bs.map fun b => (b.1, ((b.2.length : Nat) : Int)) := by
    rw [h2, List.map_append, ← List.map_reverse, List.map_map]
    congr 1
    · refine List.map_congr_left fun c hc => ?_
      show (c.key, c.rangeLength) = _
      rw [(hhas c (hpre c hc)).len]
      rfl
    · split <;> rfl
  refine ⟨traj, ?_, ?_⟩
  · unfold trajectory
    rw [hcols]
    dsimp only
    rw [hlist, ← ho]
    exact ht
  · have hlast : lastSteps n H = (bs.flatMap Prod.snd).drop o := by
      have hHe : H = (dropped ++ post.reverse.flatMap (fun c => ρ c.key)) ++ bs.flatMap Prod.snd := by
        rw [hH, hflat, hchunks, List.flatMap_append]
        simp
      have : H.length - n = (dropped ++ post.reverse.flatMap (fun c => ρ c.key)).length + o := by
        rw [hHe, List.length_append]
        omega
      rw [lastSteps, this, hHe, ← List.drop_drop, List.drop_left]
    rw [hlast]
    refine hp.mono fun k rows hk => ⟨[], ?_⟩
    rw [List.append_nil]
    rcases List.mem_append.mp hk with hk | hk
    · obtain ⟨c, hc, he⟩ := List.mem_map.mp hk
      exact List.mem_append_left _ (List.mem_map.mpr ⟨c, hpre c hc, he⟩)
    · exact List.mem_append_right _ hk

end Verif
