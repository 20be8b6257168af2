import Verif.Proofs.PyRead
import Verif.Props.C33_Columns
import Verif.Props.C37_Options
import Verif.Props.TrajDemo
/-
C79–C81: is the history of the Python writer what was given to `append`, are columns configured as asked, and are slices of the history read
back as what was given?
-/
namespace Verif
namespace PyWriter
open TrajWriter (NamesAt HeldRef)

/-- A field of the history. -/
theorem Inv.column {w0 : TrajWriter} {W : PyPath → ChunkerOpts} {f : Key → Int} {s : PyWriter} {J : Journal} {cols : List PyPath}
    (h : Inv w0 W f s J cols) (p : PyPath) (c : ColHist) : s.column p = some c ↔ ∃ i : Nat, cols[i]? = some p ∧ s.history[i]? = some c := by
  rcases h.shape with ⟨h1, h2⟩ | ⟨h1, h2⟩
  · have h3 : s.history = [] := List.length_eq_zero_iff.mp (by rw [h.hist, h1]; rfl)
    simp [PyWriter.column, view, h3, h1]
  · exact column_iff h.idx h2 h.hist h1 p c

/-- C79, unless the history was cleared in an open step: every field that was ever given to an `append` that succeeded is in the history,
fields that are not were never given, and the history of a field has one entry for each step of the journal: none if the field was not given
in that step, and else a reference that the C++ writer returned for the tensor. `episode_steps` is the number of steps that are complete. -/
theorem C79_history_partial {s : PyWriter} (hs : s.Started) {evs : List Event} (hv : ∀ e ∈ evs, e.Valid) (ht : s.Tidy evs) :
    (s.run evs).w = s.w.run (s.run evs).calls ∧
    (∀ pre data b post, evs = pre ++ .append data b :: post → ((s.run pre).handle (.append data b)).2 = .ok .done →
      ∀ p a, data.at? p = some a → ((s.run evs).column p).isSome) ∧
    (∀ p, (s.run evs).column p = none → ∀ st ∈ (s.journal evs).steps, st p = none) ∧
    (∀ p c, (s.run evs).column p = some c → c.refs.length = (s.journal evs).steps.length ∧
      ∀ (n : Nat) st, (s.journal evs).steps[n]? = some st →
        match st p with
        | none => c.refs[n]? = some none
        | some t => ∃ r, c.refs[n]? = some (some r) ∧ s.w.Names (s.run evs).calls r t) ∧
    (s.run evs).episodeSteps = ((s.journal evs).steps.length : Int) - if (s.journal evs).isOpen then 1 else 0 := by
  obtain ⟨W, f, cols, h, _, h2⟩ := hs.pyRun hv ht
  have hin : ∀ p, p ∈ cols → ((s.run evs).column p).isSome := by
    intro p hp
    obtain ⟨i, hi⟩ := List.getElem?_of_mem hp
    have hl : i < (s.run evs).history.length := by rw [h.hist]; exact (List.getElem?_eq_some_iff.mp hi).1
    rw [(h.column p _).mpr ⟨i, hi, List.getElem?_eq_getElem hl⟩]
    rfl
  refine ⟨h.runs, fun pre data b post he hr p a hp => hin p (h2 pre data b post he hr p a hp), fun p hp => ?_, fun p c hc => ?_, ?_⟩
  · refine h.unseen p fun hm => ?_
    have := hin p hm
    simp [hp] at this
  · obtain ⟨i, hi, hc'⟩ := (h.column p c).mp hc
    have hl := h.len c (List.mem_of_getElem? hc')
    refine ⟨hl, fun n st hn => ?_⟩
    have hn' := (List.getElem?_eq_some_iff.mp hn).1
    have he := h.entries i p c n st _ hi hc' hn (List.getElem?_eq_getElem (by omega))
    cases hst : st p with
    | none =>
      rw [hst] at he
      simp only
      cases hr : c.refs[n]'(by omega) with
      | none => rw [List.getElem?_eq_getElem (by omega), hr]
      | some r =>
        rw [hr] at he
        exact he.elim
    | some t =>
      rw [hst] at he
      simp only
      cases hr : c.refs[n]'(by omega) with
      | none =>
        rw [hr] at he
        exact he.elim
      | some r =>
        rw [hr] at he
        obtain ⟨row, g1, g2, _⟩ := he
        exact ⟨r, by rw [List.getElem?_eq_getElem (by omega), hr], g2 ▸ g1.names⟩
  · unfold episodeSteps
    cases hh : (s.run evs).history with
    | nil =>
      have hc : cols = [] := List.length_eq_zero_iff.mp (by rw [← h.hist, hh]; rfl)
      have hs0 := h.nonempty hc
      have ho : (s.journal evs).isOpen = false := by
        cases hx : (s.journal evs).isOpen with
        | false => rfl
        | true => exact absurd hs0 (h.openNe hx)
      simp [hs0, ho]
    | cons c cs =>
      simp only
      rw [h.len c (by rw [hh]; simp), h.isOpen]

/-- C80, unless the history was cleared in an open step: a field that has data is written in chunks of the length, and with the number of
kept references, of the last `configure` for its path that succeeded, whether that came before or after the field was first given; and else with the
options of the writer. (The length that an auto-tuned column starts with is not claimed, nor is delta encoding: see C37.) -/
theorem C80_configured_partial {s : PyWriter} (hs : s.Started) {evs : List Event} (hv : ∀ e ∈ evs, e.Valid) (ht : s.Tidy evs)
    {p : PyPath} {c : ColHist} (hc : (s.run evs).column p = some c) {r : Ref} (hr : some r ∈ c.refs) {ch : Chunker}
    (hch : (s.run evs).w.chunkers.get? r.col = some ch) :
    (∀ m k d, s.wanted p s.w.opts evs = .constant m k d → ch.opts = .constant m k false) ∧
    ∀ a, s.wanted p s.w.opts evs = .auto a → ∃ b, ch.opts = .auto b ∧ b.keep = a.keep ∧ b.weight = a.weight ∧ b.delta = false := by
  obtain ⟨W, f, cols, h, hW, _⟩ := hs.pyRun hv ht
  obtain ⟨i, hi, hc'⟩ := (h.column p c).mp hc
  obtain ⟨n, hn⟩ := List.getElem?_of_mem hr
  have hn' := (List.getElem?_eq_some_iff.mp hn).1
  have hl := h.len c (List.mem_of_getElem? hc')
  have he := h.entries i p c n _ _ hi hc' (List.getElem?_eq_getElem (by omega)) hn
  have hcol : r.col = i := by
    cases hst : ((s.journal evs).steps[n]'(by omega)) p with
    | none =>
      rw [hst] at he
      exact he.elim
    | some t =>
      rw [hst] at he
      obtain ⟨_, _, _, g3, _⟩ := he
      exact g3
  have ha := h.asks i
  rw [hi, Option.map_some, Option.getD_some, hW] at ha
  rw [hcol, h.runs] at hch
  exact ⟨fun m k d hw => TrajWriter.C37_constant_partial hs.cpp _ hch (ha.trans hw),
    fun a hw => TrajWriter.C37_auto_partial hs.cpp _ hch (ha.trans hw)⟩

/-! ### Reading back -/

theorem Tidy.prefix {s : PyWriter} {a b : List Event} (h : s.Tidy (a ++ b)) : s.Tidy a := by
  intro pre t post he hr
  exact h pre t (post ++ b) (by simp [he]) hr

theorem toColumn_ok {l : List (Option Ref)} {sq : Bool} {col : TrajCol} (h : ColHist.toColumn l sq = .ok col) :
    l = col.refs.map some ∧ col.squeeze = sq := by
  unfold ColHist.toColumn at h
  split at h
  · cases h
  · split at h
    · cases h
    · rename_i hsq hn
      cases h
      refine ⟨?_, rfl⟩
      clear hsq
      induction l with
      | nil => rfl
      | cons x l ih =>
        cases x with
        | none => simp at hn
        | some r =>
          simp only [List.mem_cons, not_or] at hn
          simp only [List.filterMap_cons, id_eq, List.map_cons, ← ih hn.2]

theorem item_ok {c : ColHist} {i : Int} {col : TrajCol} (h : c.item i = .ok col) : ∃ r, col = ⟨[r], true⟩ ∧ pyItem c.refs i = some (some r) := by
  unfold ColHist.item at h
  dsimp only at h
  generalize hj : (if i < 0 then i + (c.refs.length : Int) else i) = j at h
  by_cases h0 : j < 0
  · rw [if_pos h0] at h
    cases h
  · rw [if_neg h0] at h
    split at h
    · cases h
    · rename_i o ho
      obtain ⟨h1, h2⟩ := toColumn_ok h
      obtain ⟨refs, sq⟩ := col
      simp only at h1 h2
      match refs, h1 with
      | [r], h1 =>
        simp only [List.map_cons, List.map_nil, List.cons.injEq, and_true] at h1
        refine ⟨r, by rw [h2], ?_⟩
        unfold pyItem
        by_cases hi : i < 0
        · rw [if_pos hi] at hj
          rw [if_neg (by omega), if_pos (by omega), Int.add_comm, hj, ho, h1]
        · rw [if_neg hi] at hj
          rw [if_pos (by omega), hj, ho, h1]

theorem slice_ok {c : ColHist} {a b : Option Int} {col : TrajCol} (h : c.slice a b none = .ok col) :
    col.squeeze = false ∧ pySlice c.refs a b = col.refs.map some := by
  unfold ColHist.slice at h
  rw [if_neg (by simp)] at h
  simp only [Option.getD_none, slice_get] at h
  obtain ⟨h1, h2⟩ := toColumn_ok h
  exact ⟨h2, h1⟩

theorem pySlice_getElem {α : Type} (l : List α) (a b : Option Int) (k : Nat) :
    (pySlice l a b)[k]? = if bound l.length 0 a + k < bound l.length l.length b then l[bound l.length 0 a + k]? else none := by
  rw [pySlice, List.getElem?_drop, List.getElem?_take]

/-- C81, unless the history was cleared in an open step: let `create_item` be called with columns that are `history[path][i]` or
`history[path][start:stop]`, and let the item reach a server on some stream. Then the sample of the item can be unpacked, and its columns are
what the journal has at the time of the call: the tensor of the step, or the tensors of the steps. -/
theorem C81_read_back_partial {s : PyWriter} (hs : s.Started) {pre post : List Event} {t : String} {p : Pri} {cols : List TrajCol}
    (hv : ∀ e ∈ pre ++ .createItem t p cols :: post, e.Valid) (ht : s.Tidy (pre ++ .createItem t p cols :: post)) {k : Key}
    (hr : ((s.run pre).handle (.createItem t p cols)).2 = .ok (.item k)) {picks : List Pick} (hl : picks.length = cols.length)
    (hp : ∀ (i : Nat) pick col, picks[i]? = some pick → cols[i]? = some col → pick.of (s.run pre) = some (.ok col))
    {msgs : List Msg} (hm : msgs ∈ (s.run (pre ++ .createItem t p cols :: post)).w.streams) {srv : Server} {cache : Cache}
    {ins : List (WItem × List ChunkData)} (hsv : serveAll srv .empty msgs = .ok (cache, ins)) {it : WItem} {chunks : List ChunkData}
    (hi : (it, chunks) ∈ ins) (hk : it.key = k) (info : SampleInfo) :
    it.table = t ∧ it.priority = p ∧ ∃ smp out, asSampleLocal ⟨info, it.traj, chunks⟩ = .ok smp ∧ smp.asTrajectory = .ok out ∧
      out.length = picks.length ∧ ∀ (i : Nat) pick x, picks[i]? = some pick → out[i]? = some x → pick.Reads (s.journal pre) x := by
  obtain ⟨W, f, ps, h, _⟩ := hs.pyRun (fun e he => hv e (List.mem_append_left _ he)) ht.prefix
  obtain ⟨W', f', ps', h', _⟩ := hs.pyRun hv ht
  -- the calls of the C++ writer
  obtain ⟨more, hmore⟩ : ∃ more, (s.run (pre ++ .createItem t p cols :: post)).calls = (s.run pre).calls ++ .createItem t p cols :: more := by
    have h1 := run_calls post ((s.run pre).handle (.createItem t p cols)).1
    obtain ⟨more, hmore⟩ := h1
    refine ⟨more, ?_⟩
    rw [pyRun_append]
    refine Eq.trans hmore.symm ?_
    show ((s.run pre).calls ++ [.createItem t p cols]) ++ more = _
    simp
  have hvalid := h'.valid
  rw [hmore] at hvalid
  have hw := h'.runs
  rw [hmore] at hw
  rw [hw] at hm
  have hr' : s.w.replyAt (s.run pre).calls (.createItem t p cols) = .ok (.item k) := by
    unfold TrajWriter.replyAt
    rw [← h.runs]
    have : (match lift ((s.run pre).w.handle (.createItem t p cols)).2 with
      | .ok r => PyRes.ok (Reply.of r)
      | .raised x => .raised x
      | .died => .died) = .ok (.item k) := hr
    cases hx : ((s.run pre).w.handle (.createItem t p cols)).2 with
    | err c => rw [hx] at this; cases this
    | died => rw [hx] at this; cases this
    | ok y =>
      rw [hx] at this
      cases y with
      | item k' => simp only [lift, Reply.of, PyRes.ok.injEq, Reply.item.injEq] at this; rw [this]
      | _ => simp [lift, Reply.of] at this
  -- held
  have hvc : (s.run pre).w.validateColumns cols = .ok () := by
    have h1 : ((s.run pre).w.handle (.createItem t p cols)).2 = .ok (.item k) := by rw [h.runs]; exact hr'
    unfold TrajWriter.handle at h1
    simp only at h1
    rcases TrajWriter.createItem_cases (s.run pre).w t p cols with ⟨r, e1, e2⟩ | ⟨r, e1, e2⟩ | ⟨e1, _⟩
    · rw [e1] at h1
      cases r with
      | ok k' => exact absurd rfl (e2 k')
      | err c => cases h1
      | died => cases h1
    · rw [e1] at h1
      cases r with
      | ok k' => exact absurd rfl (e2 k')
      | err c => cases h1
      | died => cases h1
    · exact e1
  have hheld : ∀ col ∈ cols, ∀ r ∈ col.refs, HeldRef (s.run pre).w.chunkers r := by
    intro col hcol r hrm
    obtain ⟨rows, P, hI, _⟩ := hs.cpp.inv.runNamesAt h.valid
    rw [← h.runs] at hI
    exact TrajWriter.alive_held hI.base hI.q ((TrajWriter.validateColumn_iff (TrajWriter.validateColumns_alive hvc col hcol)).1 r hrm)
  -- what the entries name
  have hname : ∀ (i : Nat) path c (n : Nat) r, ps[i]? = some path → (s.run pre).history[i]? = some c → c.refs[n]? = some (some r) →
      ∃ x, ((s.journal pre).steps.map fun st => st path)[n]? = some (some x) ∧ s.w.Names (s.run pre).calls r x := by
    intro i path c n r h1 h2 h3
    have hn := (List.getElem?_eq_some_iff.mp h3).1
    have hle := h.len c (List.mem_of_getElem? h2)
    have hlt : n < (s.journal pre).steps.length := by omega
    have he := h.entries i path c n _ _ h1 h2 (List.getElem?_eq_getElem hlt) h3
    cases hst : ((s.journal pre).steps[n]'hlt) path with
    | none => rw [hst] at he; exact he.elim
    | some x =>
      rw [hst] at he
      obtain ⟨row, g1, g2, _⟩ := he
      exact ⟨x, by rw [List.getElem?_map, List.getElem?_eq_getElem hlt, Option.map_some, hst], g2 ▸ g1.names⟩
  -- each column
  have key : ∀ (i : Nat) pick col, picks[i]? = some pick → cols[i]? = some col → (s.run pre).w.Contiguous col.refs ∧
      ∃ ts : List Tensor, ts.length = col.refs.length ∧ (∀ (j : Nat) r x, col.refs[j]? = some r → ts[j]? = some x → s.w.Names (s.run pre).calls r x) ∧
        ∀ x, (if col.squeeze then ts = [x] else ∃ d sh, (∀ y ∈ ts, Tensor.Is d sh y) ∧ x = Tensor.stack d sh ts) → pick.Reads (s.journal pre) x := by
    intro i pick col h1 h2
    have hof := hp i pick col h1 h2
    have hcm := List.mem_of_getElem? h2
    cases pick with
    | item path n =>
      simp only [Pick.of, Option.map_eq_some_iff] at hof
      obtain ⟨c, c1, c2⟩ := hof
      obtain ⟨q, q1, q2⟩ := (h.column path c).mp c1
      obtain ⟨r, rfl, r2⟩ := item_ok c2
      have hle := h.len c (List.mem_of_getElem? q2)
      refine ⟨TrajWriter.contiguous_of fun j hj => ?_, ?_⟩
      · simp only [List.length_cons, List.length_nil] at hj
        rw [show j = 0 by omega]
        simp
      · have : ∃ x, pyItem ((s.journal pre).steps.map fun st => st path) n = some (some x) ∧ s.w.Names (s.run pre).calls r x := by
          unfold pyItem at r2 ⊢
          rw [List.length_map, ← hle]
          by_cases hn : 0 ≤ n
          · rw [if_pos hn] at r2 ⊢
            exact hname q path c _ r q1 q2 r2
          · rw [if_neg hn] at r2 ⊢
            by_cases hn2 : -n ≤ c.refs.length
            · rw [if_pos hn2] at r2 ⊢
              exact hname q path c _ r q1 q2 r2
            · rw [if_neg hn2] at r2
              cases r2
        obtain ⟨x, x1, x2⟩ := this
        refine ⟨[x], rfl, fun j r' x' e1 e2 => ?_, fun x' hx' => ?_⟩
        · have hj := (List.getElem?_eq_some_iff.mp e1).1
          simp only [List.length_cons, List.length_nil] at hj
          rw [show j = 0 by omega] at e1 e2
          simp only [List.getElem?_cons_zero, Option.some.injEq] at e1 e2
          rw [← e1, ← e2]
          exact x2
        · simp only [if_true, List.cons.injEq, and_true] at hx'
          rw [← hx']
          exact x1
    | slice path a b =>
      simp only [Pick.of, Option.map_eq_some_iff] at hof
      obtain ⟨c, c1, c2⟩ := hof
      obtain ⟨q, q1, q2⟩ := (h.column path c).mp c1
      obtain ⟨sq, r2⟩ := slice_ok c2
      have hle := h.len c (List.mem_of_getElem? q2)
      have hget : ∀ (j : Nat) r, col.refs[j]? = some r → bound c.refs.length 0 a + j < bound c.refs.length c.refs.length b ∧
          c.refs[bound c.refs.length 0 a + j]? = some (some r) := by
        intro j r hj
        have h3 := pySlice_getElem c.refs a b j
        rw [r2, List.getElem?_map, hj, Option.map_some] at h3
        split at h3
        · exact ⟨by assumption, h3.symm⟩
        · cases h3
      refine ⟨TrajWriter.contiguous_of fun j hj r hrj r' hrj' hkey => ?_, ?_⟩
      · simp only [Option.mem_def] at hrj hrj'
        exact h.successor hs.cpp q2 (hget j r hrj).2 (hget (j + 1) r' hrj').2 (hheld col hcm r (List.mem_of_getElem? hrj))
          (hheld col hcm r' (List.mem_of_getElem? hrj')) hkey
      · obtain ⟨ts, ts1, ts2⟩ : ∃ ts : List Tensor, ts.length = col.refs.length ∧ ∀ (j : Nat) r x, col.refs[j]? = some r → ts[j]? = some x →
            ((s.journal pre).steps.map fun st => st path)[bound c.refs.length 0 a + j]? = some (some x) ∧ s.w.Names (s.run pre).calls r x := by
          have hex : ∀ j : Nat, ∃ x, ∀ r, col.refs[j]? = some r →
              ((s.journal pre).steps.map fun st => st path)[bound c.refs.length 0 a + j]? = some (some x) ∧ s.w.Names (s.run pre).calls r x := by
            intro j
            cases hj : col.refs[j]? with
            | none => exact ⟨⟨.int32, [], []⟩, by simp⟩
            | some r =>
              obtain ⟨x, x1, x2⟩ := hname q path c _ r q1 q2 (hget j r hj).2
              refine ⟨x, fun r' hr' => ?_⟩
              cases hr'
              exact ⟨x1, x2⟩
          obtain ⟨g, hg⟩ := Classical.axiomOfChoice hex
          refine ⟨(List.range col.refs.length).map g, by simp, fun j r x e1 e2 => ?_⟩
          have hj := (List.getElem?_eq_some_iff.mp e1).1
          rw [List.getElem?_map, List.getElem?_range hj, Option.map_some, Option.some.injEq] at e2
          rw [← e2]
          exact hg j r e1
        refine ⟨ts, ts1, fun j r x e1 e2 => (ts2 j r x e1 e2).2, fun x hx => ?_⟩
        rw [sq] at hx
        obtain ⟨d, sh, y1, y2⟩ := hx
        refine ⟨ts, d, sh, ?_, y1, y2⟩
        apply List.ext_getElem?
        intro j
        have h3 := pySlice_getElem ((s.journal pre).steps.map fun st => st path) a b j
        rw [List.length_map, ← hle] at h3
        rw [h3, List.getElem?_map (f := some) (l := ts)]
        by_cases hj : j < ts.length
        · have hj' : j < col.refs.length := by omega
          rw [if_pos (hget j _ (List.getElem?_eq_getElem hj')).1, (ts2 j _ _ (List.getElem?_eq_getElem hj') (List.getElem?_eq_getElem hj)).1,
            List.getElem?_eq_getElem hj]
          rfl
        · rw [List.getElem?_eq_none (l := ts) (by omega)]
          have h4 := pySlice_getElem c.refs a b j
          rw [r2, List.getElem?_map, List.getElem?_eq_none (l := col.refs) (by omega)] at h4
          split
          · rename_i hlt
            rw [if_pos hlt] at h4
            have : c.refs.length ≤ bound c.refs.length 0 a + j := List.getElem?_eq_none_iff.mp h4.symm
            rw [List.getElem?_eq_none (by simp; omega)]
            rfl
          · rfl
  -- all columns
  have hex : ∀ i : Nat, ∃ ts : List Tensor, ∀ pick col, picks[i]? = some pick → cols[i]? = some col → ts.length = col.refs.length ∧
      (∀ (j : Nat) r x, col.refs[j]? = some r → ts[j]? = some x → s.w.Names (s.run pre).calls r x) ∧
        ∀ x, (if col.squeeze then ts = [x] else ∃ d sh, (∀ y ∈ ts, Tensor.Is d sh y) ∧ x = Tensor.stack d sh ts) → pick.Reads (s.journal pre) x := by
    intro i
    by_cases hi : i < picks.length
    · obtain ⟨_, ts, h1, h2, h3⟩ := key i _ _ (List.getElem?_eq_getElem hi) (List.getElem?_eq_getElem (by omega))
      refine ⟨ts, fun pick col e1 e2 => ?_⟩
      rw [List.getElem?_eq_getElem hi] at e1
      rw [List.getElem?_eq_getElem (by omega)] at e2
      cases e1
      cases e2
      exact ⟨h1, h2, h3⟩
    · exact ⟨[], fun pick col e1 => by rw [List.getElem?_eq_none (by omega)] at e1; cases e1⟩
  obtain ⟨vals, hvals⟩ := Classical.axiomOfChoice hex
  have hvget : ∀ (i : Nat), i < cols.length → ((List.range cols.length).map vals)[i]? = some (vals i) := by
    intro i hi
    rw [List.getElem?_map, List.getElem?_range hi]
    rfl
  obtain ⟨r1, r2, smp, out, r3, r4, r5, r6⟩ := TrajWriter.C33_contiguous_partial hs.cpp hvalid hr' (values := (List.range cols.length).map vals)
    (fun col hcol => by
      obtain ⟨i, hi⟩ := List.getElem?_of_mem hcol
      have hlt := (List.getElem?_eq_some_iff.mp hi).1
      rw [← h.runs]
      exact (key i _ col (List.getElem?_eq_getElem (show i < picks.length by omega)) hi).1)
    (by simp)
    (fun i col ts e1 e2 => by
      have hlt := (List.getElem?_eq_some_iff.mp e1).1
      rw [hvget i hlt] at e2
      cases e2
      have := hvals i _ col (List.getElem?_eq_getElem (show i < picks.length by omega)) e1
      exact ⟨this.1, this.2.1⟩) hm hsv hi hk info
  refine ⟨r1, r2, smp, out, r3, r4, by omega, fun i pick x e1 e2 => ?_⟩
  have hlt := (List.getElem?_eq_some_iff.mp e1).1
  have hcol := List.getElem?_eq_getElem (show i < cols.length by omega)
  exact (hvals i pick _ e1 hcol).2.2 x (r6 i _ _ x hcol (hvget i (by omega)) e2)

end PyWriter
end Verif
