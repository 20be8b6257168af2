import Verif.Proofs.PyHistory
/-
Every event keeps the history.
-/
namespace Verif
namespace PyWriter
open TrajWriter (NamesAt)
open Chunker (Row)

theorem union_node {a b c : PTree Unit} (h : a.union b = some c) (ha : ∀ x, a ≠ .leaf x) : ∀ x, c ≠ .leaf x := by
  cases a with
  | leaf x => exact absurd rfl (ha x)
  | dict fs =>
    cases b with
    | dict gs => 
      rw [PTree.union, Option.map_eq_some_iff] at h
      obtain ⟨_, _, rfl⟩ := h
      simp
    | leaf _ => simp [PTree.union] at h
    | seq _ => simp [PTree.union] at h
  | seq ts =>
    cases b with
    | seq us => 
      rw [PTree.union, Option.map_eq_some_iff] at h
      obtain ⟨_, _, rfl⟩ := h
      simp
    | leaf _ => simp [PTree.union] at h
    | dict _ => simp [PTree.union] at h

/-- `append` with a known structure. -/
theorem Inv.appendKnown {w0 : TrajWriter} (hst : w0.Started) {W : PyPath → ChunkerOpts} {f : Key → Int} {s : PyWriter} {J : Journal}
    {cols : List PyPath} (h : Inv w0 W f s J cols) (hne : cols ≠ []) {data : PTree (Option Tensor)} (hd : data.WF)
    (hwf : ∀ p t, data.at? p = some (some t) → t.WF) (partialStep : Bool) :
    ∃ s' r cols', s.appendKnown data partialStep = (s', r) ∧ (∀ p ∈ cols, p ∈ cols') ∧
      ((r = .ok () ∧ Inv w0 W f s' ⟨J.after data, partialStep⟩ cols' ∧ ∀ p a, data.at? p = some a → p ∈ cols') ∨
        (r ≠ .ok () ∧ Inv w0 W f s' J cols')) := by
  have hsh : s.Shaped cols := by
    rcases h.shape with ⟨h, _⟩ | ⟨_, h⟩
    · exact absurd h hne
    · exact h
  unfold PyWriter.appendKnown
  cases hr : s.reorder data.flattenWithPath with
  | some flat =>
    obtain ⟨g1, g2, g3⟩ := reorder_ok h.idx hd hr
    obtain ⟨s', r, h1, h2⟩ := h.appendFlat hst hwf g1 g2 g3 hne partialStep
    exact ⟨s', r, cols, h1, fun _ h => h, h2.imp (fun h => ⟨h.1, h.2, g2⟩) id⟩
  | none =>
    simp only
    cases hu : s.struct.union (data.map fun _ => ()) with
    | none => exact ⟨s, _, cols, rfl, fun _ h => h, .inr ⟨by simp, h⟩⟩
    | some u =>
      simp only
      obtain ⟨u1, u2⟩ := PTree.union_ok hu hsh.wf (PTree.map_wf _ hd)
      obtain ⟨p, hp⟩ := List.exists_mem_of_ne_nil _ hne
      obtain ⟨s1, cols', a1, a2, a3⟩ := h.update u1 (union_node hu hsh.node) ⟨p, u2 p ((hsh.paths p).mpr hp)⟩
        fun q hq => u2 q ((hsh.paths q).mpr hq)
      rw [a1]
      simp only
      have hsub : ∀ q ∈ cols, q ∈ cols' := fun q hq => (a3 q).mpr (u2 q ((hsh.paths q).mpr hq))
      have hne' : cols' ≠ [] := List.ne_nil_of_mem ((a3 p).mpr (u2 p ((hsh.paths p).mpr hp)))
      cases hr' : s1.reorder data.flattenWithPath with
      | none => exact ⟨s1, _, cols', rfl, hsub, .inr ⟨by simp, a2⟩⟩
      | some flat =>
        obtain ⟨g1, g2, g3⟩ := reorder_ok a2.idx hd hr'
        obtain ⟨s', r, h1, h2⟩ := a2.appendFlat hst hwf g1 g2 g3 hne' partialStep
        exact ⟨s', r, cols', h1, hsub, h2.imp (fun h => ⟨h.1, h.2, g2⟩) id⟩

theorem Inv.append {w0 : TrajWriter} (hst : w0.Started) {W : PyPath → ChunkerOpts} {f : Key → Int} {s : PyWriter} {J : Journal}
    {cols : List PyPath} (h : Inv w0 W f s J cols) {data : PTree (Option Tensor)} {partialStep : Bool}
    (hv : (Event.append data partialStep).Valid) :
    ∃ s' r cols', s.append data partialStep = (s', r) ∧ (∀ p ∈ cols, p ∈ cols') ∧
      ((r = .ok () ∧ Inv w0 W f s' ⟨J.after data, partialStep⟩ cols' ∧ ∀ p a, data.at? p = some a → p ∈ cols') ∨
        (r ≠ .ok () ∧ Inv w0 W f s' J cols')) := by
  obtain ⟨v1, v2, ⟨p, v3⟩, v4⟩ := hv
  unfold PyWriter.append
  rcases h.shape with ⟨hc, hs⟩ | ⟨hc, hs⟩
  · rw [hs]
    simp only
    have hat : ∀ p, (data.map fun _ => ()).at? p = some () ↔ (data.at? p).isSome := by
      intro p
      rw [PTree.map_at]
      cases data.at? p <;> simp
    obtain ⟨s1, cols', a1, a2, a3⟩ := h.update (new := data.map fun _ => ()) (PTree.map_wf _ v1) (by
        intro a ha
        cases data with
        | leaf x => exact v2 x rfl
        | dict fs => simp [PTree.map] at ha
        | seq ts => simp [PTree.map] at ha) ⟨p, (hat p).mpr v3⟩ (by rw [hc]; simp)
    rw [a1]
    obtain ⟨s', r, cols'', g1, _, g2⟩ := a2.appendKnown hst (List.ne_nil_of_mem ((a3 p).mpr ((hat p).mpr v3))) v1 v4 partialStep
    exact ⟨s', r, cols'', g1, by rw [hc]; simp, g2⟩
  · have := h.appendKnown hst hc v1 v4 partialStep
    cases hst' : s.struct with
    | leaf x => exact absurd hst' (hs.node x)
    | dict fs => exact this
    | seq ts => exact this

/-- What `configure` changes. -/
def note (W : PyPath → ChunkerOpts) : Event → PyRes Reply → PyPath → ChunkerOpts
  | .configure p keep (some m), .ok _ => fun q => if p = q then .constant m keep false else W q
  | .configure p keep none, .ok _ => fun q => if p = q then .auto (.new keep 1 false) else W q
  | _, _ => W

theorem Inv.configure {w0 : TrajWriter} {W : PyPath → ChunkerOpts} {f : Key → Int} {s : PyWriter} {J : Journal}
    {cols : List PyPath} (h : Inv w0 W f s J cols) (path : PyPath) (keep : Int) (maxLen : Option Int) :
    ∃ s' r, s.configure path keep maxLen = (s', r) ∧
      ((r = .ok () ∧ Inv w0 (fun q => if path = q then chunkerOptions keep maxLen else W q) f s' J cols) ∨ (r ≠ .ok () ∧ Inv w0 W f s' J cols)) := by
  unfold PyWriter.configure
  split
  · exact ⟨s, _, rfl, .inr ⟨by simp, h⟩⟩
  rename_i hk
  split
  · exact ⟨s, _, rfl, .inr ⟨by simp, h⟩⟩
  rename_i hm
  have hval : (chunkerOptions keep maxLen).validate = .ok () := by
    cases maxLen with
    | none =>
      have h1 : (chunkerOptions keep none).maxLen = 1 := rfl
      have h2 : (chunkerOptions keep none).keep = keep := rfl
      rw [ChunkerOpts.validate, h1, h2, if_neg (by omega), if_neg (by omega), if_neg (by omega)]
    | some m =>
      simp only [Option.any_some, Bool.or_eq_true, decide_eq_true_eq, not_or] at hm
      have h1 : (chunkerOptions keep (some m)).maxLen = m := rfl
      have h2 : (chunkerOptions keep (some m)).keep = keep := rfl
      rw [ChunkerOpts.validate, h1, h2, if_neg (by omega), if_neg (by omega), if_neg (by omega)]
  cases hi : s.index.get? path with
  | none =>
    have hpn := h.idx.get_none.mp hi
    refine ⟨_, _, rfl, .inl ⟨rfl, { h with
      idx := ⟨h.idx.index, h.idx.size⟩
      shape := ?_
      config := ?_
      asks := ?_
      conf := ?_ }⟩⟩
    · rcases h.shape with h | ⟨h, g⟩
      · exact .inl h
      · exact .inr ⟨h, g.wf, g.node, g.paths, g.flat⟩
    · intro p o hp
      simp only [AMap.get?_insert] at hp
      split at hp
      · cases hp; exact hval
      · exact h.config p o hp
    · intro i
      show w0.asked i w0.opts s.calls = _
      rw [h.asks]
      cases hp : cols[i]? with
      | none => rfl
      | some p =>
        simp only [Option.map_some, Option.getD_some]
        rw [if_neg (by rintro rfl; exact hpn (List.mem_of_getElem? hp))]
    · intro p hp
      simp only [AMap.get?_insert]
      by_cases hpp : p = path
      · subst hpp; simp
      · rw [if_neg hpp, if_neg (fun e => hpp e.symm)]
        exact h.conf p hp
  | some i =>
    simp only
    have hci := (h.idx.index path i).mp hi
    have hclk : (s.w.handle (.configure i (chunkerOptions keep maxLen))).1.episode = s.w.episode ∧
        (s.w.handle (.configure i (chunkerOptions keep maxLen))).1.step = s.w.step := by
      rcases TrajWriter.handle_clock s.w (.configure i (chunkerOptions keep maxLen)) with ⟨_, _, _, he, _⟩ | ⟨_, he, _⟩ | ⟨k1, k2, _⟩
      · cases he
      · cases he
      · exact ⟨k1, k2⟩
    have base : ∀ W' : PyPath → ChunkerOpts, (∀ q, q ∉ cols → W' q = W q) →
        (∀ i', w0.asked i' w0.opts (s.calls ++ [.configure i (chunkerOptions keep maxLen)]) = (cols[i']?.map W').getD w0.opts) →
        Inv w0 W' f (s.cpp (.configure i (chunkerOptions keep maxLen))).1 J cols := by
      intro W' hW' hask
      refine ⟨?_, ?_, ⟨h.idx.index, h.idx.size⟩, ?_, h.hist, ?_, h.config, h.isOpen, h.openNe, h.nonempty, h.len, ?_, h.unseen, ?_, hask, ?_⟩
      · show (s.w.handle _).1 = w0.run (s.calls ++ [_])
        rw [TrajWriter.run_append, ← h.runs]
        rfl
      · intro x hx
        rcases List.mem_append.mp hx with hx | hx
        · exact h.valid x hx
        · rw [List.mem_singleton.mp hx]; trivial
      · rcases h.shape with h | ⟨h, g⟩
        · exact .inl h
        · exact .inr ⟨h, g.wf, g.node, g.paths, g.flat⟩
      · intro j hj
        exact TrajWriter.handle_none (h.chunkers j hj) (by simp)
      · intro i p c n st r h3 h4 h5 h6
        exact (h.entries i p c n st r h3 h4 h5 h6).mono _
      · show f (s.w.handle _).1.episode = (s.w.handle _).1.step - _
        rw [hclk.1, hclk.2]
        exact h.clock
      · intro p hp
        rw [hW' p hp]
        exact h.conf p hp
    have hasked : ∀ i', w0.asked i' w0.opts (s.calls ++ [.configure i (chunkerOptions keep maxLen)]) =
        match (s.w.handle (.configure i (chunkerOptions keep maxLen))).2 with
        | .ok .done => if i = i' then chunkerOptions keep maxLen else (cols[i']?.map W).getD w0.opts
        | _ => (cols[i']?.map W).getD w0.opts := by
      intro i'
      rw [asked_append, ← h.runs, h.asks]
      rcases hx : (s.w.handle (.configure i (chunkerOptions keep maxLen))).2 with (_ | _ | _ | _) | _ | _ <;>
      simp only [TrajWriter.asked, hx]
    have hok : ∀ a, (s.w.handle (.configure i (chunkerOptions keep maxLen))).2 = .ok a → a = .done := by
      intro a ha
      simp only [TrajWriter.handle] at ha
      rcases hx : (s.w.configure i (chunkerOptions keep maxLen)).2 with _ | _ | _ <;> rw [hx] at ha <;> simp [TrajWriter.Reply.of] at ha
      exact ha.symm
    rcases hx : s.cpp (.configure i (chunkerOptions keep maxLen)) with ⟨s', a | e | _⟩
    · have ha : (s.w.handle (.configure i (chunkerOptions keep maxLen))).2 = .ok a := congrArg Prod.snd hx
      have hd := hok a ha
      subst hd
      refine ⟨s', _, rfl, .inl ⟨rfl, ?_⟩⟩
      have := base (fun q => if path = q then chunkerOptions keep maxLen else W q) (fun q hq => by
          rw [if_neg]; rintro rfl; exact hq (List.mem_of_getElem? hci)) (fun i' => by
          rw [hasked, ha]
          simp only
          by_cases hii : i = i'
          · subst hii
            rw [hci]; simp
          · rw [if_neg hii]
            cases hp : cols[i']? with
            | none => rfl
            | some p =>
              simp only [Option.map_some, Option.getD_some]
              rw [if_neg]
              rintro rfl
              have h3 := (h.idx.index path i').mpr hp
              rw [hi] at h3
              simp only [Option.some.injEq] at h3
              exact hii h3)
      rw [hx] at this
      exact this
    · have ha : (s.w.handle (.configure i (chunkerOptions keep maxLen))).2 = .err e := congrArg Prod.snd hx
      have := base W (fun _ _ => rfl) (fun i' => by rw [hasked, ha])
      rw [hx] at this
      exact ⟨s', _, rfl, .inr ⟨by simp, this⟩⟩
    · have ha : (s.w.handle (.configure i (chunkerOptions keep maxLen))).2 = .died := congrArg Prod.snd hx
      have := base W (fun _ _ => rfl) (fun i' => by rw [hasked, ha])
      rw [hx] at this
      exact ⟨s', _, rfl, .inr ⟨by simp, this⟩⟩

/-- A call that is handed on. -/
theorem Inv.pass {w0 : TrajWriter} {W : PyPath → ChunkerOpts} {f : Key → Int} {s : PyWriter} {J : Journal}
    {cols : List PyPath} (h : Inv w0 W f s J cols) {e : TrajWriter.Event} (hv : e.Valid) (h1 : ∀ data inc, e ≠ .append data inc)
    (h2 : ∀ clear, e ≠ .episodeEnd clear) (h3 : ∀ col o, e ≠ .configure col o) : Inv w0 W f (s.pass e).1 J cols := by
  refine h.cpp hv (fun data inc he => absurd he (h1 data inc)) h3 ?_ ?_ <;>
  · rcases TrajWriter.handle_clock s.w e with ⟨_, _, _, he, _⟩ | ⟨_, he, _⟩ | ⟨k1, k2, _⟩
    · exact absurd he (h1 _ _)
    · exact absurd he (h2 _)
    · first | exact k1 | exact k2

/-- A new episode. -/
theorem Inv.episode {w0 : TrajWriter} (hst : w0.Started) {W : PyPath → ChunkerOpts} {f : Key → Int} {s : PyWriter} {J : Journal}
    {cols : List PyPath} (h : Inv w0 W f s J cols) (clear : Bool) (hr : (s.w.handle (.episodeEnd clear)).2 = .ok .done) (hop : clear = true → J.isOpen = false) :
    ∃ f', Inv w0 W f' (if clear then { (s.cpp (.episodeEnd clear)).1 with history := s.history.map ColHist.reset } else (s.cpp (.episodeEnd clear)).1)
      (if clear then .empty else J) cols := by
  rcases TrajWriter.handle_clock s.w (.episodeEnd clear) with ⟨_, _, _, he, _⟩ | ⟨_, he, _, k1, k2, k3⟩ | ⟨_, _, _, k4⟩
  · cases he
  · have hgen : s.w.gen = w0.gen := by
      have := (hst.drawn h.valid).1
      rwa [← h.runs] at this
    have hnew : ∀ r row, w0.NamesAt s.calls r row → row.episode ≠ (s.w.handle (.episodeEnd clear)).1.episode := by
      intro r row hn he
      obtain ⟨j, hj, hje⟩ := hn.drawn hst h.valid
      rw [← h.runs] at hj
      rw [k1, hje, hgen] at he
      have := hst.gen _ _ he
      omega
    have hent : ∀ k i n t r, Entry w0 f s.calls i n t r →
        Entry w0 (fun x => if x = (s.w.handle (.episodeEnd clear)).1.episode then k else f x) (s.calls ++ [.episodeEnd clear]) i n t r := by
      intro k i n t r hE
      refine Entry.mono ?_ _
      cases t <;> cases r <;> try exact hE
      obtain ⟨row, g1, g2, g3, g4⟩ := hE
      exact ⟨row, g1, g2, g3, by simp only [hnew _ _ g1, if_false]; exact g4⟩
    have hruns : (s.w.handle (.episodeEnd clear)).1 = w0.run (s.calls ++ [.episodeEnd clear]) := by
      rw [TrajWriter.run_append, ← h.runs]
      rfl
    have hvalid : ∀ x ∈ s.calls ++ [TrajWriter.Event.episodeEnd clear], x.Valid := by
      intro x hx
      rcases List.mem_append.mp hx with hx | hx
      · exact h.valid x hx
      · rw [List.mem_singleton.mp hx]; trivial
    have hchunk : ∀ i, cols.length ≤ i → (s.w.handle (.episodeEnd clear)).1.chunkers.get? i = none :=
      fun j hj => TrajWriter.handle_none (h.chunkers j hj) (by simp)
    have hasks : ∀ i, w0.asked i w0.opts (s.calls ++ [.episodeEnd clear]) = (cols[i]?.map W).getD w0.opts := by
      intro i
      rw [asked_append, asked_one _ _ _ _ (by simp)]
      exact h.asks i
    cases clear with
    | false =>
      simp only [Bool.false_eq_true, if_false]
      refine ⟨fun x => if x = (s.w.handle (.episodeEnd false)).1.episode then - ((J.steps.length : Int) - if J.isOpen then 1 else 0) else f x, ?_⟩
      refine ⟨hruns, hvalid, ⟨h.idx.index, h.idx.size⟩, ?_, h.hist, hchunk, h.config, h.isOpen, h.openNe, h.nonempty, h.len, ?_, h.unseen, ?_, hasks, h.conf⟩
      · rcases h.shape with h | ⟨h, g⟩
        · exact .inl h
        · exact .inr ⟨h, g.wf, g.node, g.paths, g.flat⟩
      · intro i p c n st r h3 h4 h5 h6
        exact hent _ i n (st p) r (h.entries i p c n st r h3 h4 h5 h6)
      · show (if (s.w.handle (.episodeEnd false)).1.episode = (s.w.handle (.episodeEnd false)).1.episode then _ else _) =
          (s.w.handle (.episodeEnd false)).1.step - _
        rw [if_pos rfl, k2]
        omega
    | true =>
      simp only [if_true]
      refine ⟨fun x => if x = (s.w.handle (.episodeEnd true)).1.episode then 0 else f x, ?_⟩
      refine ⟨hruns, hvalid, ⟨h.idx.index, h.idx.size⟩, ?_, by rw [List.length_map]; exact h.hist, hchunk, h.config, ?_, by simp [Journal.empty], fun _ => rfl, ?_, ?_, ?_, ?_, hasks, h.conf⟩
      · rcases h.shape with h | ⟨h, g⟩
        · exact .inl h
        · exact .inr ⟨h, g.wf, g.node, g.paths, g.flat⟩
      · show s.isOpen = false
        rw [h.isOpen]; exact hop rfl
      · intro c hc
        obtain ⟨c0, _, rfl⟩ := List.mem_map.mp hc
        rfl
      · intro i p c n st r h3 h4 h5 h6
        simp [Journal.empty] at h5
      · simp [Journal.empty]
      · show (if (s.w.handle (.episodeEnd true)).1.episode = (s.w.handle (.episodeEnd true)).1.episode then _ else _) =
          (s.w.handle (.episodeEnd true)).1.step - _
        rw [if_pos rfl, k2]
        simp [Journal.empty]
  · exact absurd hr (k4 clear rfl)

/-- One event. -/
theorem Inv.handle {w0 : TrajWriter} (hst : w0.Started) {W : PyPath → ChunkerOpts} {f : Key → Int} {s : PyWriter} {J : Journal}
    {cols : List PyPath} (h : Inv w0 W f s J cols) {e : Event} (hv : e.Valid)
    (hop : ∀ b, e = .episodeEnd true b → (s.handle e).2 = .ok .done → J.isOpen = false) :
    ∃ f' cols', Inv w0 (note W e (s.handle e).2) f' (s.handle e).1 (J.note e (s.handle e).2) cols' ∧ (∀ p ∈ cols, p ∈ cols') ∧
      ∀ data b, e = .append data b → (s.handle e).2 = .ok .done → ∀ p a, data.at? p = some a → p ∈ cols' := by
  cases e with
  | append data partialStep =>
    obtain ⟨s', r, cols', h1, h3, h2⟩ := h.append hst hv
    simp only [PyWriter.handle, h1]
    rcases h2 with ⟨rfl, h2, h4⟩ | ⟨hr, h2⟩
    · refine ⟨f, cols', h2, h3, fun d b he _ => ?_⟩
      cases he
      exact h4
    · cases r with
      | ok u => exact absurd rfl hr
      | raised e => exact ⟨f, cols', h2, h3, by simp⟩
      | died => exact ⟨f, cols', h2, h3, by simp⟩
  | configure path keep maxLen =>
    obtain ⟨s', r, h1, h2⟩ := h.configure path keep maxLen
    simp only [PyWriter.handle, h1]
    rcases h2 with ⟨rfl, h2⟩ | ⟨hr, h2⟩
    · cases maxLen with
      | none => exact ⟨f, cols, h2, fun _ h => h, by simp⟩
      | some m => exact ⟨f, cols, h2, fun _ h => h, by simp⟩
    · cases r with
      | ok u => exact absurd rfl hr
      | raised e => cases maxLen <;> exact ⟨f, cols, h2, fun _ h => h, by simp⟩
      | died => cases maxLen <;> exact ⟨f, cols, h2, fun _ h => h, by simp⟩
  | createItem t p cs => exact ⟨f, cols, h.pass trivial (by simp) (by simp) (by simp), fun _ h => h, by simp⟩
  | flushBegin k =>
    simp only [PyWriter.handle]
    split
    · exact ⟨f, cols, h, fun _ h => h, by simp⟩
    · exact ⟨f, cols, h.pass trivial (by simp) (by simp) (by simp), fun _ h => h, by simp⟩
  | flushEnd k b => exact ⟨f, cols, h.pass (e := .flushEnd k) trivial (by simp) (by simp) (by simp), fun _ h => h, by simp⟩
  | episodeBegin => exact ⟨f, cols, h.pass (e := .episodeBegin) trivial (by simp) (by simp) (by simp), fun _ h => h, by simp⟩
  | episodeEnd clear b =>
    have hkeep : (∀ (hne : (s.w.handle (.episodeEnd clear)).2 ≠ .ok .done), Inv w0 W f (s.cpp (.episodeEnd clear)).1 J cols) := by
      intro hne
      refine h.cpp trivial (by simp) (by simp) ?_ ?_ <;>
      · rcases TrajWriter.handle_clock s.w (.episodeEnd clear) with ⟨_, _, _, he, _⟩ | ⟨_, _, he, _⟩ | ⟨k1, k2, _⟩
        · cases he
        · exact absurd he hne
        · first | exact k1 | exact k2
    cases hr : (s.w.handle (.episodeEnd clear)).2 with
    | ok a =>
      cases a with
      | done =>
        have hp : s.pass (.episodeEnd clear) = ((s.cpp (.episodeEnd clear)).1, .ok .done) := by
          simp only [PyWriter.pass, PyWriter.cpp, hr, lift, Reply.of]
        have hh : s.handle (.episodeEnd clear b) = (if clear then { (s.cpp (.episodeEnd clear)).1 with
            history := s.history.map ColHist.reset } else (s.cpp (.episodeEnd clear)).1, .ok .done) := by
          simp only [PyWriter.handle, hp]
          rfl
        obtain ⟨f', h1⟩ := h.episode hst clear hr (by
          rintro rfl
          exact hop b rfl (by rw [hh]))
        rw [hh]
        refine ⟨f', cols, ?_, fun _ h => h, by simp⟩
        cases clear <;> exact h1
      | refs l => 
        simp only [TrajWriter.handle] at hr
        rcases hx : s.w.flushResult 0 with _ | ⟨_ | _ | _⟩ <;> rw [hx] at hr <;> simp [TrajWriter.Reply.of] at hr
        rcases hy : (s.w.endEpisode clear).2 with _ | _ | _ <;> rw [hy] at hr <;> simp at hr
      | item k => 
        simp only [TrajWriter.handle] at hr
        rcases hx : s.w.flushResult 0 with _ | ⟨_ | _ | _⟩ <;> rw [hx] at hr <;> simp [TrajWriter.Reply.of] at hr
        rcases hy : (s.w.endEpisode clear).2 with _ | _ | _ <;> rw [hy] at hr <;> simp at hr
      | waiting =>
        have hp : s.pass (.episodeEnd clear) = ((s.cpp (.episodeEnd clear)).1, .ok .waiting) := by
          simp only [PyWriter.pass, PyWriter.cpp, hr, lift, Reply.of]
        simp only [PyWriter.handle, hp, expire]
        have := hkeep (by rw [hr]; simp)
        cases clear <;> cases b <;> exact ⟨f, cols, this, fun _ h => h, by simp⟩
    | err c =>
      have hp : s.pass (.episodeEnd clear) = ((s.cpp (.episodeEnd clear)).1, .raised (.status c)) := by
        simp only [PyWriter.pass, PyWriter.cpp, hr, lift]
      simp only [PyWriter.handle, hp, expire]
      have := hkeep (by rw [hr]; simp)
      cases clear <;> exact ⟨f, cols, this, fun _ h => h, by simp⟩
    | died =>
      have hp : s.pass (.episodeEnd clear) = ((s.cpp (.episodeEnd clear)).1, .died) := by
        simp only [PyWriter.pass, PyWriter.cpp, hr, lift]
      simp only [PyWriter.handle, hp, expire]
      have := hkeep (by rw [hr]; simp)
      cases clear <;> exact ⟨f, cols, this, fun _ h => h, by simp⟩
  | close => exact ⟨f, cols, h.pass (e := .close) trivial (by simp) (by simp) (by simp), fun _ h => h, by simp⟩
  | worker inp => exact ⟨f, cols, h.pass (e := .worker inp) trivial (by simp) (by simp) (by simp), fun _ h => h, by simp⟩
  | confirm keys => exact ⟨f, cols, h.pass (e := .confirm keys) trivial (by simp) (by simp) (by simp), fun _ h => h, by simp⟩

/-- Any events. -/
theorem Inv.run {w0 : TrajWriter} (hst : w0.Started) : ∀ {evs : List Event} {W : PyPath → ChunkerOpts} {f : Key → Int} {s : PyWriter} {J : Journal}
    {cols : List PyPath}, Inv w0 W f s J cols → (∀ e ∈ evs, e.Valid) →
    (∀ pre b post, evs = pre ++ .episodeEnd true b :: post → ((s.run pre).handle (.episodeEnd true b)).2 = .ok .done →
      (s.journalFrom J pre).isOpen = false) →
    ∃ W' f' cols', Inv w0 W' f' (s.run evs) (s.journalFrom J evs) cols' ∧ (∀ p, W' p = s.wanted p (W p) evs) ∧ (∀ p ∈ cols, p ∈ cols') ∧
      ∀ pre data b post, evs = pre ++ .append data b :: post → ((s.run pre).handle (.append data b)).2 = .ok .done →
        ∀ p a, data.at? p = some a → p ∈ cols'
  | [], W, f, s, J, cols, h, _, _ => ⟨W, f, cols, h, fun _ => rfl, fun _ h => h, by simp⟩
  | e :: evs, W, f, s, J, cols, h, hv, ht => by
    obtain ⟨f1, cols1, h1, h2, h3⟩ := h.handle hst (hv e List.mem_cons_self) (by
      rintro b rfl hr
      exact ht [] b evs rfl hr)
    obtain ⟨W', f', cols', g1, g2, g3, g4⟩ := Inv.run hst (evs := evs) h1 (fun x hx => hv x (List.mem_cons_of_mem _ hx)) (by
      intro pre b post he hr
      exact ht (e :: pre) b post (by rw [he]; rfl) hr)
    refine ⟨W', f', cols', g1, fun p => ?_, fun p hp => g3 p (h2 p hp), fun pre data b post he hr p a hp => ?_⟩
    · rw [g2]
      show _ = (s.handle e).1.wanted p _ evs
      congr 1
      cases e with
      | configure q keep m => cases m <;> cases (s.handle (.configure q keep _)).2 <;> rfl
      | _ => rfl
    · cases pre with
      | nil =>
        simp only [List.nil_append, List.cons.injEq] at he
        obtain ⟨rfl, rfl⟩ := he
        exact g3 p (h3 data b rfl hr p a hp)
      | cons x pre =>
        simp only [List.cons_append, List.cons.injEq] at he
        obtain ⟨rfl, rfl⟩ := he
        exact g4 pre data b post rfl hr p a hp

theorem Started.pyInv {s : PyWriter} (h : s.Started) : Inv s.w (fun _ => s.w.opts) (fun _ => 0) s .empty [] := by
  have hn := h.new
  have hc := h.cpp.new
  have hchunk : s.w.chunkers = .empty ∧ s.w.step = 0 := by
    unfold TrajWriter.new at hc
    split at hc
    · simp only [Res.ok.injEq] at hc
      rw [← hc]
      exact ⟨rfl, rfl⟩
    · cases hc
  obtain ⟨w, st, hist, idx, fl, cfg, op, cl⟩ := s
  simp only [PyWriter.new, PyWriter.mk.injEq, true_and] at hn
  obtain ⟨rfl, rfl, rfl, rfl, rfl, rfl, rfl⟩ := hn
  simp only at hchunk
  refine ⟨rfl, by simp, ⟨by intro p i; simp [AMap.get?, AMap.empty], rfl⟩, .inl ⟨rfl, rfl⟩, rfl, ?_, ?_, rfl, by simp [Journal.empty],
    fun _ => rfl, by simp, by simp, by simp [Journal.empty], ?_, ?_, ?_⟩
  · intro i _
    simp only [hchunk.1]
    rfl
  · intro p o hp
    cases hp
  · simp [hchunk.2, Journal.empty]
  · intro i
    rfl
  · intro p _
    rfl

/-- Any events of a new writer. -/
theorem Started.pyRun {s : PyWriter} (h : s.Started) {evs : List Event} (hv : ∀ e ∈ evs, e.Valid) (ht : s.Tidy evs) :
    ∃ W f cols, Inv s.w W f (s.run evs) (s.journal evs) cols ∧ (∀ p, W p = s.wanted p s.w.opts evs) ∧
      ∀ pre data b post, evs = pre ++ .append data b :: post → ((s.run pre).handle (.append data b)).2 = .ok .done →
        ∀ p a, data.at? p = some a → p ∈ cols := by
  obtain ⟨W, f, cols, h1, h2, _, h3⟩ := Inv.run h.cpp h.pyInv hv ht
  exact ⟨W, f, cols, h1, h2, h3⟩

end PyWriter
end Verif
