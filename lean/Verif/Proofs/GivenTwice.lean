import Verif.Proofs.FailedAppend
import Verif.Spec.GivenTwice
/-
Which tensors the unfinished chunks end with.
-/
namespace Verif
namespace Chunker

/-- What the reference to the newest row says. -/
def newest (c : Chunker) : Option Cell := c.active.getLast?.map c.cellAt

/-- If there is an unfinished chunk afterwards, it is the one from before, with the same rows, and constant options were not changed, either. -/
def OldRows (c c' : Chunker) : Prop :=
  c'.buffer ≠ [] → c.buffer ≠ [] ∧ c'.newest = c.newest ∧ ∀ m k d, c'.opts = .constant m k d → c.opts = .constant m k d

theorem OldRows.refl (c : Chunker) : OldRows c c := fun h => ⟨h, rfl, fun _ _ _ h => h⟩

theorem OldRows.trans {a b c : Chunker} (h : OldRows a b) (h' : OldRows b c) : OldRows a c := fun hc =>
  ⟨(h (h' hc).1).1, (h' hc).2.1.trans (h (h' hc).1).2.1, fun m k d ho => (h (h' hc).1).2.2 m k d ((h' hc).2.2 m k d ho)⟩

theorem flush_oldRows (c : Chunker) : OldRows c c.flush.1 := by
  unfold flush
  split
  · exact .refl c
  split
  · exact .refl c
  · exact .refl c
  · split
    · exact .refl c
    · exact .refl c
    · split
      · exact .refl c
      · exact fun h => absurd rfl h

theorem applyConfig_oldRows (c : Chunker) (o : ChunkerOpts) : OldRows c (c.applyConfig o).1 := by
  unfold applyConfig
  split
  · exact .refl c
  · rename_i hb
    split
    · exact fun h => absurd h hb
    · exact .refl c
    · exact .refl c

end Chunker
namespace TrajWriter
open Chunker (Row OldRows)

theorem forceRefs_oldRows : ∀ (refs : List Ref) (w : TrajWriter) (i : Nat) (c' : Chunker), (w.forceRefs refs).1.chunkers.get? i = some c' →
    ∃ c, w.chunkers.get? i = some c ∧ OldRows c c'
  | [], w, i, c', h => ⟨c', h, .refl _⟩
  | r :: refs, w, i, c', h => by
    unfold forceRefs at h
    split at h
    · exact forceRefs_oldRows refs w i c' h
    · split at h
      · exact ⟨c', h, .refl _⟩
      · rename_i c hc
        have hf := c.flush_oldRows
        have key : ∀ d, (w.chunkers.insert r.col c.flush.1).get? i = some d → ∃ c0, w.chunkers.get? i = some c0 ∧ OldRows c0 d := by
          intro d hd
          rw [AMap.get?_insert] at hd
          split at hd
          · rename_i he
            cases hd
            exact ⟨c, by rw [he, hc], hf⟩
          · exact ⟨d, hd, .refl _⟩
        rcases hx : c.flush with ⟨c1, _ | _ | _⟩ <;> rw [hx] at h key <;> simp only at h key
        · obtain ⟨d, h1, h2⟩ := forceRefs_oldRows refs _ i c' h
          obtain ⟨c0, h3, h4⟩ := key d h1
          exact ⟨c0, h3, h4.trans h2⟩
        · exact key c' h
        · exact key c' h

theorem onAll_oldRows {f : Nat → Chunker → Chunker × Res Unit} (hf : ∀ i c, OldRows c (f i c).1) {is : List Nat} {m : AMap Nat Chunker} {i : Nat} {c' : Chunker}
    (h : (onAll f is m).1.get? i = some c') : ∃ c, m.get? i = some c ∧ OldRows c c' := by
  cases hc : m.get? i with
  | none => rw [onAll_none f is hc] at h; cases h
  | some c =>
    obtain ⟨d, h1, h2⟩ := onAll_rel (R := OldRows) OldRows.refl (fun _ _ _ => OldRows.trans) hf is m i c hc
    rw [h] at h1
    cases h1
    exact ⟨c, rfl, h2⟩

/-- An event leaves an unfinished chunk as it was, or it appends to it. -/
theorem handle_rows {w : TrajWriter} {rows : Nat → List Row} (hb : w.Base rows) {e : Event} (hv : e.Valid) {i : Nat} {c' : Chunker}
    (h : (w.handle e).1.chunkers.get? i = some c') (hc : c'.buffer ≠ []) :
    (∃ c, w.chunkers.get? i = some c ∧ OldRows c c' ∧ ∀ data inc t, e = .append data inc → data[i]? = some (some t) → ∀ refs, (w.handle e).2 ≠ .ok (.refs refs)) ∨
    (∃ data inc t x, e = .append data inc ∧ data[i]? = some (some t) ∧ c'.newest = some x ∧ x.episode = w.episode ∧ x.step = w.step ∧ ¬ c'.opts.maxLen ≤ 1) := by
  have same : ∀ {e : Event}, (∀ data inc, e ≠ .append data inc) → (w.handle e).1.chunkers.get? i = some c' → (w.handle e).1.chunkers = w.chunkers →
      ∃ c, w.chunkers.get? i = some c ∧ OldRows c c' ∧ ∀ data inc t, e = .append data inc → data[i]? = some (some t) → ∀ refs, (w.handle e).2 ≠ .ok (.refs refs) :=
    fun hn h he => ⟨c', by rwa [he] at h, .refl _, fun data inc _ h => absurd h (hn data inc)⟩
  have other : ∀ {e : Event}, (∀ data inc, e ≠ .append data inc) → (∃ c, w.chunkers.get? i = some c ∧ OldRows c c') →
      ∃ c, w.chunkers.get? i = some c ∧ OldRows c c' ∧ ∀ data inc t, e = .append data inc → data[i]? = some (some t) → ∀ refs, (w.handle e).2 ≠ .ok (.refs refs) :=
    fun hn ⟨c, h1, h2⟩ => ⟨c, h1, h2, fun data inc _ h => absurd h (hn data inc)⟩
  cases e with
  | append data inc =>
    simp only [handle] at h ⊢
    cases hu : w.unrecoverable with
    | some code =>
      have : w.append data inc = (w, .err code) := by simp [append, hu]
      rw [this] at h ⊢
      exact .inl ⟨c', h, .refl _, fun _ _ _ _ _ _ => nofun⟩
    | none =>
      have took : ∀ {m n}, Took w data m n → m.get? i = some c' → (∀ t, data[i]? = some (some t) → i < n ∨ ∀ refs, Reply.of .refs (w.append data inc).2 ≠ .ok (.refs refs)) →
          (∃ c, w.chunkers.get? i = some c ∧ OldRows c c' ∧ ∀ d j t, Event.append data inc = .append d j → d[i]? = some (some t) →
            ∀ refs, Reply.of .refs (w.append data inc).2 ≠ .ok (.refs refs)) ∨
          (∃ d j t x, Event.append data inc = .append d j ∧ d[i]? = some (some t) ∧ c'.newest = some x ∧ x.episode = w.episode ∧ x.step = w.step ∧ ¬ c'.opts.maxLen ≤ 1) := by
        intro m n hT hm hr
        by_cases hg : ∃ t, data[i]? = some (some t) ∧ i < n
        · obtain ⟨t, h1, h2⟩ := hg
          obtain ⟨d, k1, -, -, -, k5, k6⟩ := hT.before i t h2 h1
          rw [hm] at k1
          cases k1
          obtain ⟨x, x1, x2, x3⟩ := k5 hc
          exact .inr ⟨data, inc, t, x, rfl, h1, x1, x2, x3, fun hle => hc (k6 hle)⟩
        · have hpos : n ≤ i ∨ ∀ t, data[i]? ≠ some (some t) := by
            by_cases hni : n ≤ i
            · exact .inl hni
            · exact .inr fun t ht => hg ⟨t, ht, by omega⟩
          rcases hT.fresh i c' hpos hm with h1 | ⟨-, h1, -⟩
          · refine .inl ⟨c', h1, .refl _, fun d j t he ht => ?_⟩
            cases he
            exact (hr t ht).resolve_left fun hlt => hg ⟨t, ht, hlt⟩
          · exact absurd h1 hc
      rcases append_exact hb hu hv inc with ⟨-, refs, -, m, e1, hT⟩ | ⟨-, m, n, code, e1, -, hF⟩
      · rw [e1] at h
        exact took hT h fun t ht => .inl (List.getElem?_eq_some_iff.mp ht).1
      · rw [e1] at h
        exact took hF.toTook h fun t ht => .inr fun refs => by rw [e1]; exact nofun
  | createItem t p cols =>
    refine .inl (same (by nofun) h ?_)
    simp only [handle]
    rcases createItem_cases w t p cols with ⟨r, e1, -⟩ | ⟨r, e1, -⟩ | ⟨-, -, -, e1⟩ <;> rw [e1]
  | flushBegin k => exact .inl (other (by nofun) (forceRefs_oldRows _ _ _ _ h))
  | flushEnd k =>
    refine .inl (same (by nofun) h ?_)
    simp only [handle]
    cases w.flushResult k <;> rfl
  | episodeBegin =>
    simp only [handle] at h
    cases hu : w.unrecoverable with
    | some code => rw [hu] at h; exact .inl (other (by nofun) ⟨c', h, .refl _⟩)
    | none => rw [hu] at h; exact .inl (other (by nofun) (forceRefs_oldRows _ _ _ _ h))
  | episodeEnd clear =>
    refine .inl (other (by nofun) ?_)
    simp only [handle] at h
    have hf : ∀ (i : Nat) (c : Chunker), OldRows c ((fun _ c => if clear then (c.reset, Res.ok ()) else c.flush : Nat → Chunker → Chunker × Res Unit) i c).1 := by
      intro i c
      simp only
      split
      · exact fun h => absurd rfl h
      · exact c.flush_oldRows
    rcases hfr : w.flushResult 0 with _ | ⟨_ | _ | _⟩ <;> rw [hfr] at h
    · exact ⟨c', h, .refl _⟩
    · unfold endEpisode at h
      have key := @onAll_oldRows _ hf w.chunkers.keys w.chunkers i c'
      rcases hx : onAll (fun _ c => if clear then (c.reset, .ok ()) else c.flush) w.chunkers.keys w.chunkers with ⟨m', _ | _ | _⟩ <;>
        rw [hx] at h key <;> exact key h
    · exact ⟨c', h, .refl _⟩
    · exact ⟨c', h, .refl _⟩
  | configure col o =>
    refine .inl (other (by nofun) ?_)
    simp only [handle, configure] at h
    rcases hx : o.validate with _ | _ | _ <;> rw [hx] at h <;> simp only at h
    · cases hcol : w.chunkers.get? col with
      | none => rw [hcol] at h; exact ⟨c', h, .refl _⟩
      | some c =>
        rw [hcol] at h
        simp only [AMap.get?_insert] at h
        split at h
        · rename_i he
          cases h
          exact ⟨c, by rw [he, hcol], c.applyConfig_oldRows _⟩
        · exact ⟨c', h, .refl _⟩
    · exact ⟨c', h, .refl _⟩
    · exact ⟨c', h, .refl _⟩
  | close => exact .inl (same (by nofun) h rfl)
  | worker inp =>
    refine .inl (other (by nofun) ?_)
    simp only [handle] at h
    rcases (workerStep_frame w inp).2.2.2.2.2.2 with ⟨k3, -⟩ | ⟨it, -, k3⟩
    · rw [k3] at h; exact ⟨c', h, .refl _⟩
    · rw [k3] at h
      refine onAll_oldRows ?_ h
      intro j d'
      unfold finalizeOne Chunker.itemFinalized
      split
      · exact .refl _
      · split
        · exact .refl _
        · split
          · rename_i ho
            refine fun h => ⟨h, rfl, fun m k d hd => ?_⟩
            simp only at hd
            subst hd
            cases hopt : d'.opts with
            | constant m' k' d'' => rw [hopt] at ho; exact Option.some.inj ho
            | auto a =>
              rw [hopt] at ho
              simp only [ChunkerOpts.onItemFinalized] at ho
              cases hx : a.onItemFinalized _ with
              | none => rw [hx] at ho; cases ho
              | some b => rw [hx] at ho; cases ho
          · exact .refl _
  | confirm keys => exact .inl (same (by nofun) h rfl)

/-- After `EndEpisode` there are no unfinished chunks. -/
theorem episodeEnd_finished {w : TrajWriter} {clear : Bool} (he : (w.handle (.episodeEnd clear)).2 = .ok .done) {i : Nat} {c : Chunker}
    (hc : (w.handle (.episodeEnd clear)).1.chunkers.get? i = some c) : c.buffer = [] := by
  simp only [handle] at he hc
  rcases hfr : w.flushResult 0 with _ | ⟨_ | _ | _⟩ <;> rw [hfr] at he hc
  · cases he
  · simp only at he hc
    unfold endEpisode at he hc
    rcases hx : onAll (fun _ c => if clear then (c.reset, .ok ()) else c.flush) w.chunkers.keys w.chunkers with ⟨m, _ | _ | _⟩ <;> rw [hx] at he hc
    · simp only at hc
      refine onAll_keep (P := fun c => c.buffer = []) ?_ _ _ _ i hx ?_ c hc
      · intro j d d' hd
        split at hd
        · cases hd; rfl
        · exact (Chunker.flush_one hd).2 rfl
      · cases hi : w.chunkers.get? i with
        | none =>
          have := onAll_none (fun _ c => if clear then (c.reset, .ok ()) else c.flush) w.chunkers.keys hi
          rw [hx] at this
          simp only at this
          rw [this] at hc
          cases hc
        | some d => exact .inl ((AMap.mem_keys_iff _ _).mpr (by rw [hi]; rfl))
    · cases he
    · cases he
  · cases he
  · cases he

/-- A new writer has no columns. -/
theorem no_columns {w : TrajWriter} (hs : w.Started) {i : Nat} {c : Chunker} (hc : (w.run []).chunkers.get? i = some c) : False := by
  have := hs.new
  unfold TrajWriter.new at this
  rcases hx : w.opts.validate with _ | _ | _ <;> rw [hx] at this
  · have h1 := congrArg chunkers (Res.ok.inj this)
    simp only at h1
    have h2 : w.chunkers.get? i = some c := hc
    rw [← h1] at h2
    cases h2
  · cases this
  · cases this

theorem run_snoc (w : TrajWriter) (pre : List Event) (e : Event) : w.run (pre ++ [e]) = ((w.run pre).handle e).1 := by rw [run_append]; rfl

theorem SameStep.nil {w : TrajWriter} {pre : List Event} : w.SameStep pre [] := by
  intro a e b h
  cases a <;> cases h

theorem SameStep.snoc {w : TrajWriter} {pre evs : List Event} (h : w.SameStep pre evs) {e : Event} (he : ¬ w.EndsStep (pre ++ evs) e) :
    w.SameStep pre (evs ++ [e]) := by
  intro a x b hab
  rcases List.eq_nil_or_concat b with rfl | ⟨b', y, rfl⟩
  · obtain ⟨rfl, h2⟩ := List.append_inj_left' hab rfl, List.append_inj_right' hab rfl
    cases h2
    exact he
  · have : evs ++ [e] = (a ++ x :: b') ++ [y] := by simpa using hab
    exact h a x b' (List.append_inj_left' this rfl)

theorem SameStep.of_snoc {w : TrajWriter} {pre evs : List Event} {e : Event} (h : w.SameStep pre (evs ++ [e])) :
    w.SameStep pre evs ∧ ¬ w.EndsStep (pre ++ evs) e :=
  ⟨fun a x b hab => h a x (b ++ [e]) (by rw [hab]; simp), h evs e [] rfl⟩

/-- The clock stands still within a step. -/
theorem clock_of {w : TrajWriter} {pre : List Event} {e : Event} (he : ¬ w.EndsStep pre e) :
    (w.run (pre ++ [e])).episode = (w.run pre).episode ∧ (w.run (pre ++ [e])).step = (w.run pre).step := by
  rw [run_snoc]
  rcases handle_clock (w.run pre) e with ⟨data, inc, refs, rfl, h1, h2, h3⟩ | ⟨clear, rfl, h1, -⟩ | ⟨h1, h2, -⟩
  · cases inc with
    | true => exact absurd ⟨refs, h1⟩ he
    | false => exact ⟨h2, by simpa using h3⟩
  · exact absurd h1 he
  · exact ⟨h1, h2⟩

/-- The newest row of an unfinished chunk is of the present episode and not of a later step. If it is of the present step, then it was tried to append to the
column in this step; and it is, if that was done successfully. -/
structure NewestIn (w : TrajWriter) (pre : List Event) (i : Nat) : Prop where
  past : ∀ c, (w.run pre).chunkers.get? i = some c → c.buffer ≠ [] →
    ∃ x, c.newest = some x ∧ x.episode = (w.run pre).episode ∧ x.step ≤ (w.run pre).step ∧ (x.step = (w.run pre).step → w.TriedInStep pre i) ∧
      (w.GivenInStep pre i → x.step = (w.run pre).step)

theorem newestIn {w : TrajWriter} (hs : w.Started) (i : Nat) {pre : List Event} (hv : ∀ e ∈ pre, e.Valid) : w.NewestIn pre i := by
  generalize hn : pre.length = n
  induction n generalizing pre with
  | zero =>
    obtain rfl := List.length_eq_zero_iff.mp hn
    exact ⟨fun c hc _ => (no_columns hs hc).elim⟩
  | succ n ih =>
    rcases List.eq_nil_or_concat pre with rfl | ⟨pre, e, rfl⟩
    · cases hn
    · rw [List.concat_eq_append] at hv hn ⊢
      have hv' : ∀ e ∈ pre, e.Valid := fun x hx => hv x (by simp [hx])
      have he : e.Valid := hv e (by simp)
      obtain ⟨hk⟩ := ih hv' (by simpa using hn)
      obtain ⟨rows, P, hI, -⟩ := hs.inv.run (evs := pre) hv'
      refine ⟨fun c' hc' hb => ?_⟩
      have hc2 := hc'
      rw [run_snoc] at hc2
      have htried : ∀ {t data inc}, e = .append data inc → data[i]? = some (some t) → ¬ w.EndsStep pre e → w.TriedInStep (pre ++ [e]) i := by
        rintro t data inc rfl hd hne
        exact ⟨pre, data, inc, [], t, rfl, hd, by simpa using SameStep.nil.snoc (pre := pre) (by simpa using hne)⟩
      have hmore : ¬ w.EndsStep pre e → w.TriedInStep pre i → w.TriedInStep (pre ++ [e]) i := by
        rintro hne ⟨a, data, inc, b, t, rfl, hd, hss⟩
        exact ⟨a, data, inc, b ++ [e], t, by simp, hd, by simpa using hss.snoc hne⟩
      by_cases hends : w.EndsStep pre e
      · have hno : ¬ w.GivenInStep (pre ++ [e]) i := by
          rintro ⟨a, data, inc, b, t, hab, hd, hacc, hss⟩
          rcases List.eq_nil_or_concat b with rfl | ⟨b', y, rfl⟩
          · obtain ⟨rfl, h5⟩ := List.append_inj_left' hab rfl, List.append_inj_right' hab rfl
            cases h5
            exact hss [] _ [] rfl (by simpa using hends)
          · have hab' : pre ++ [e] = (a ++ .append data inc :: b') ++ [y] := by simpa using hab
            obtain ⟨h5, h6⟩ := List.append_inj_left' hab' rfl, List.append_inj_right' hab' rfl
            cases h6
            exact (SameStep.of_snoc (evs := .append data inc :: b') (e := e) (by simpa using hss)).2 (by rw [← h5]; exact hends)
        rcases handle_clock (w.run pre) e with ⟨data, inc, refs, rfl, g1, g2, g3⟩ | ⟨clear, rfl, g1, -⟩ | ⟨g1, g2, g3, g4⟩
        · cases inc with
          | false => exact absurd hends id
          | true =>
            rw [← run_snoc] at g2 g3
            rw [g2, g3]
            have : ∃ x, c'.newest = some x ∧ x.episode = (w.run pre).episode ∧ x.step ≤ (w.run pre).step := by
              rcases handle_rows hI.base he hc2 hb with ⟨c, h1, h2, -⟩ | ⟨data, inc, t, x, -, hd, h1, h2, h3, -⟩
              · obtain ⟨x, x1, x2, x3, -⟩ := hk c h1 (h2 hb).1
                exact ⟨x, by rw [(h2 hb).2.1, x1], x2, x3⟩
              · exact ⟨x, h1, h2, by omega⟩
            obtain ⟨x, x1, x2, x3⟩ := this
            exact ⟨x, x1, x2, by simp; omega, fun h => by simp at h; omega, fun h => absurd h hno⟩
        · exact absurd (episodeEnd_finished g1 hc2) hb
        · cases e with
          | append data inc =>
            cases inc with
            | false => exact absurd hends id
            | true => obtain ⟨refs, hr⟩ := hends; exact absurd hr (g3 refs)
          | episodeEnd clear => exact absurd hends (g4 clear rfl)
          | _ => exact absurd hends id
      · obtain ⟨k1, k2⟩ := clock_of hends
        rw [k1, k2]
        rcases handle_rows hI.base he hc2 hb with ⟨c, h1, h2, h3⟩ | ⟨data, inc, t, x, rfl, hd, h1, h2, h3, -⟩
        · obtain ⟨g1, g2, -⟩ := h2 hb
          obtain ⟨x, x1, x2, x3, x4, x5⟩ := hk c h1 g1
          refine ⟨x, by rw [g2, x1], x2, x3, fun h => hmore hends (x4 h), ?_⟩
          rintro ⟨a, data, inc, b, t, hab, hd, hacc, hss⟩
          rcases List.eq_nil_or_concat b with rfl | ⟨b', y, rfl⟩
          · obtain ⟨rfl, h5⟩ := List.append_inj_left' hab rfl, List.append_inj_right' hab rfl
            cases h5
            obtain ⟨refs, hr⟩ := hacc
            exact absurd hr (h3 data inc t rfl hd refs)
          · have hab' : pre ++ [e] = (a ++ .append data inc :: b') ++ [y] := by simpa using hab
            have := List.append_inj_left' hab' rfl
            exact x5 ⟨a, data, inc, b', t, this, hd, hacc, (SameStep.of_snoc (e := y) (by simpa using hss)).1⟩
        · exact ⟨x, h1, h2, by omega, fun _ => htried rfl hd hends, fun _ => h3⟩

/-- With chunks of one row there are no unfinished ones. -/
theorem one_finished {w : TrajWriter} (hs : w.Started) (i : Nat) {pre : List Event} (hv : ∀ e ∈ pre, e.Valid) {c : Chunker}
    (hc : (w.run pre).chunkers.get? i = some c) {k : Int} {d : Bool} (ho : c.opts = .constant 1 k d) : c.buffer = [] := by
  refine Classical.byContradiction fun hb => ?_
  generalize hn : pre.length = n
  induction n generalizing pre c with
  | zero =>
    obtain rfl := List.length_eq_zero_iff.mp hn
    exact no_columns hs hc
  | succ n ih =>
    rcases List.eq_nil_or_concat pre with rfl | ⟨pre, e, rfl⟩
    · cases hn
    · rw [List.concat_eq_append] at hv hn hc
      have hv' : ∀ e ∈ pre, e.Valid := fun x hx => hv x (by simp [hx])
      obtain ⟨rows, P, hI, -⟩ := hs.inv.run (evs := pre) hv'
      rw [run_snoc] at hc
      rcases handle_rows hI.base (hv e (by simp)) hc hb with ⟨c0, h1, h2, -⟩ | ⟨data, inc, t, x, -, -, -, -, -, h1⟩
      · obtain ⟨g1, -, g2⟩ := h2 hb
        exact ih hv' h1 (g2 _ _ _ ho) g1 (by simpa using hn)
      · rw [ho] at h1
        exact h1 (Int.le_refl _)

end TrajWriter
end Verif
