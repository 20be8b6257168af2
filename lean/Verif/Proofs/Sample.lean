import Verif.Spec.Sample
import Verif.Proofs.Rows
namespace Verif

/-! ### The map of the chunks -/

theorem chunkMap_fold (l : List ChunkData) : ∀ (m : AMap Key ChunkData) (k : Key), (l.map ChunkData.key).Nodup →
    (l.foldl (fun m c => m.insert c.key c) m).get? k = ((l.find? fun c => c.key = k) <|> m.get? k) := by
  induction l with
  | nil => intro m k _; simp
  | cons c l ih =>
    intro m k hn
    simp only [List.map_cons, List.nodup_cons] at hn
    rw [List.foldl_cons, ih _ _ hn.2, AMap.get?_insert, List.find?_cons]
    by_cases hk : k = c.key
    · subst hk
      have : l.find? (fun c' => c'.key = c.key) = none := by
        rw [List.find?_eq_none]
        intro x hx
        simp only [decide_eq_true_eq]
        intro he
        exact hn.1 (List.mem_map.mpr ⟨x, hx, he⟩)
      simp [this]
    · have hk' : ¬ c.key = k := fun h => hk h.symm
      simp [hk, hk']

theorem chunkMap_get {l : List ChunkData} (hn : (l.map ChunkData.key).Nodup) (k : Key) :
    (chunkMap l).get? k = l.find? fun c => c.key = k := by
  rw [chunkMap, chunkMap_fold l _ _ hn]
  simp

theorem find_perm {l l' : List ChunkData} (h : l.Perm l') (hn : (l.map ChunkData.key).Nodup) (k : Key) :
    (l.find? fun c => c.key = k) = l'.find? fun c => c.key = k := by
  have hn' : (l'.map ChunkData.key).Nodup := (h.map _).nodup_iff.mp hn
  have key : ∀ {a b : List ChunkData}, a.Perm b → (a.map ChunkData.key).Nodup → (b.map ChunkData.key).Nodup → ∀ c,
      (a.find? fun c => c.key = k) = some c → (b.find? fun c => c.key = k) = some c := by
    intro a b hab _ hb c hc
    have h1 := List.find?_some hc
    have h2 := List.mem_of_find?_eq_some hc
    have h3 : c ∈ b := hab.mem_iff.mp h2
    simp only [decide_eq_true_eq] at h1
    cases hf : b.find? (fun c => c.key = k) with
    | none =>
      rw [List.find?_eq_none] at hf
      exact absurd h1 (by simpa using hf c h3)
    | some x =>
      have h4 := List.find?_some hf
      have h5 := List.mem_of_find?_eq_some hf
      simp only [decide_eq_true_eq] at h4
      have : x = c := by
        obtain ⟨i, hi, rfl⟩ := List.getElem_of_mem h5
        obtain ⟨j, hj, rfl⟩ := List.getElem_of_mem h3
        have he : (b.map ChunkData.key)[i]'(by simpa using hi) = (b.map ChunkData.key)[j]'(by simpa using hj) := by
          simp [h1, h4]
        have hi' := hb.idxOf_getElem i (by simpa using hi)
        have hj' := hb.idxOf_getElem j (by simpa using hj)
        rw [he, hj'] at hi'
        have := hi'.symm
        subst this
        rfl
      rw [this]
  cases hf : l.find? (fun c => c.key = k) with
  | some c => exact (key h hn hn' c hf).symm
  | none =>
    cases hf' : l'.find? (fun c => c.key = k) with
    | none => rfl
    | some c => rw [key h.symm hn' hn c hf'] at hf; simp at hf

theorem entryChunks_get {es : List Entry} {s : SampledItem} (hd : es.flatMap Entry.data = s.chunks) (hn : (s.chunks.map ChunkData.key).Nodup)
    (k : Key) : (entryChunks es).get? k = (chunkMap s.chunks).get? k := by
  have hp : (es.flatMap fun e => e.data.reverse).Perm s.chunks := by
    rw [← hd]
    clear hd
    induction es with
    | nil => simp
    | cons e es ih =>
      simp only [List.flatMap_cons]
      exact (List.reverse_perm _).append ih
  have hn' := (hp.map ChunkData.key).nodup_iff.mpr hn
  rw [entryChunks, chunkMap_get hn', chunkMap_get hn, find_perm hp hn']

/-! ### Reference counts -/

/-- The state of the loop: the counts are the remaining uses, and chunks in use are there. -/
def CountOK (m0 : AMap Key ChunkData) (st : AMap Key ChunkData × (Key → Nat)) (left : List Slice) : Prop :=
  (∀ k, st.2 k = (left.filter fun s => s.chunk = k).length) ∧ ∀ s ∈ left, st.1.get? s.chunk = m0.get? s.chunk

theorem takeSlices_eq (m0 : AMap Key ChunkData) : ∀ (ss : List Slice) (st : AMap Key ChunkData × (Key → Nat)) (more : List Slice),
    CountOK m0 st (ss ++ more) → (∀ s ∈ ss, m0.get? s.chunk ≠ none) →
    (∃ ts st', takeSlices st ss = .ok (ts, st') ∧ unpackSlices m0 ss = .ok ts ∧ CountOK m0 st' more) ∨
    (∃ e, takeSlices st ss = .err e ∧ unpackSlices m0 ss = .err e) ∨ (takeSlices st ss = .died ∧ unpackSlices m0 ss = .died)
  | [], st, more, h, _ => .inl ⟨[], st, rfl, rfl, h⟩
  | s :: ss, st, more, h, ha => by
    have hget := h.2 s (by simp)
    have hs := ha s List.mem_cons_self
    obtain ⟨c, hc⟩ := Option.ne_none_iff_exists'.mp hs
    simp only [takeSlices, unpackSlices, hget, hc]
    obtain ⟨o, ho⟩ : ∃ o, unpackSlice c s = o := ⟨_, rfl⟩
    simp only [ho]
    cases o with
    | err e => exact .inr (.inl ⟨e, rfl, rfl⟩)
    | died => exact .inr (.inr ⟨rfl, rfl⟩)
    | ok t =>
      simp only
      have hcount : CountOK m0 ((if st.2 s.chunk - 1 = 0 then st.1.erase s.chunk else st.1),
          fun k => if k = s.chunk then st.2 s.chunk - 1 else st.2 k) (ss ++ more) := by
        constructor
        · intro k
          simp only
          have h1 := h.1 k
          rw [List.cons_append, List.filter_cons] at h1
          split
          · rename_i hk
            subst hk
            simp only [decide_true, if_true, List.length_cons] at h1
            omega
          · rename_i hk
            rw [if_neg (by simpa using fun h => hk h.symm)] at h1
            exact h1
        · intro x hx
          simp only
          have hx0 := h.2 x (by rw [List.cons_append]; exact List.mem_cons_of_mem _ hx)
          split
          · rename_i hz
            rw [AMap.get?_erase]
            split
            · rename_i hk
              exfalso
              have h1 := h.1 s.chunk
              rw [List.cons_append, List.filter_cons] at h1
              simp only [decide_true, if_true, List.length_cons] at h1
              have : x ∈ (ss ++ more).filter fun s' => s'.chunk = s.chunk := List.mem_filter.mpr ⟨hx, by simpa using hk⟩
              have := List.length_pos_of_mem this
              omega
            · exact hx0
          · exact hx0
      rcases takeSlices_eq m0 ss _ more hcount (fun x hx => ha x (List.mem_cons_of_mem _ hx)) with
        ⟨ts, st', h1, h2, h3⟩ | ⟨e, h1, h2⟩ | ⟨h1, h2⟩
      · exact .inl ⟨t :: ts, st', by rw [h1], by rw [h2], h3⟩
      · exact .inr (.inl ⟨e, by rw [h1], by rw [h2]⟩)
      · exact .inr (.inr ⟨by rw [h1], by rw [h2]⟩)

theorem takeTraj_eq (m0 : AMap Key ChunkData) : ∀ (t : FlatTraj) (st : AMap Key ChunkData × (Key → Nat)),
    CountOK m0 st (t.flatMap Column.slices) → (∀ col ∈ t, ∀ s ∈ col.slices, m0.get? s.chunk ≠ none) → takeTraj st t = unpackTraj m0 t
  | [], _, _, _ => rfl
  | col :: cols, st, h, ha => by
    rw [List.flatMap_cons] at h
    simp only [takeTraj, unpackTraj]
    rcases takeSlices_eq m0 col.slices st _ h (ha col List.mem_cons_self) with ⟨ts, st', h1, h2, h3⟩ | ⟨e, h1, h2⟩ | ⟨h1, h2⟩
    · have := takeTraj_eq m0 cols st' h3 fun c hc => ha c (List.mem_cons_of_mem _ hc)
      simp only [h1, h2, this]
    · simp only [h1, h2]
    · simp only [h1, h2]

/-- The client rebuilds the sample from entries that carry it. -/
theorem asSample_carries {s : SampledItem} (hv : s.Valid) {es : List Entry} (h : Carries s es) : asSampleGrpc es = asSampleLocal s := by
  cases es with
  | nil => have := h.info; simp at this
  | cons e es =>
    have hi : e.info = some (s.info, s.traj) := by simpa using h.info
    simp only [asSampleGrpc, asSampleLocal, hi, Option.getD_some]
    have hin : ∀ k ∈ s.chunks.map ChunkData.key, (chunkMap s.chunks).get? k ≠ none := by
      intro k hk
      rw [chunkMap_get hv.nodup]
      obtain ⟨c, hc, rfl⟩ := List.mem_map.mp hk
      rw [ne_eq, List.find?_eq_none]
      intro hall
      simpa using hall c hc
    rw [takeTraj_eq (chunkMap s.chunks)]
    · exact ⟨fun k => rfl, fun sl _ => entryChunks_get h.data hv.nodup _⟩
    · exact fun col hc sl hs => hin _ (hv.all col hc sl hs)

/-! ### Collecting -/

theorem collect_init : ∀ (init : List Entry) (parts : List Entry) (done : List (List Entry)), (∀ x ∈ init, x.last = false) →
    init.foldl collect (parts, done) = (parts ++ init, done)
  | [], parts, done, _ => by simp
  | x :: init, parts, done, h => by
    rw [List.foldl_cons, collect, if_neg (by simp [h x])]
    rw [collect_init init _ _ fun y hy => h y (List.mem_cons_of_mem _ hy)]
    simp

theorem collect_group {s : SampledItem} {es : List Entry} (h : Carries s es) (done : List (List Entry)) :
    es.foldl collect ([], done) = ([], done ++ [es]) := by
  obtain ⟨init, e, rfl, he, hi⟩ := h.last
  rw [List.foldl_append, collect_init init [] done hi]
  simp [collect, he]

/-- The groups carry the samples. -/
def CarriesAll (ss : List SampledItem) (groups : List (List Entry)) : Prop :=
  ss.length = groups.length ∧ ∀ (i : Nat) (s : SampledItem) (g : List Entry), ss[i]? = some s → groups[i]? = some g → Carries s g

theorem CarriesAll.nil : CarriesAll [] [] := ⟨rfl, by simp⟩

theorem CarriesAll.cons_iff {s : SampledItem} {ss : List SampledItem} {g : List Entry} {gs : List (List Entry)} :
    CarriesAll (s :: ss) (g :: gs) ↔ Carries s g ∧ CarriesAll ss gs := by
  constructor
  · rintro ⟨h1, h2⟩
    exact ⟨h2 0 s g rfl rfl, by simpa using h1, fun i s' g' hs hg => h2 (i + 1) s' g' hs hg⟩
  · rintro ⟨h0, h1, h2⟩
    refine ⟨by simp [h1], fun i s' g' hs hg => ?_⟩
    cases i with
    | zero => simp at hs hg; subst hs hg; exact h0
    | succ i => exact h2 i s' g' hs hg

theorem CarriesAll.snoc {ss : List SampledItem} {gs : List (List Entry)} (h : CarriesAll ss gs) {s : SampledItem} {g : List Entry}
    (hg : Carries s g) : CarriesAll (ss ++ [s]) (gs ++ [g]) := by
  induction ss generalizing gs with
  | nil =>
    have : gs = [] := List.length_eq_zero_iff.mp h.1.symm
    subst this
    exact CarriesAll.cons_iff.mpr ⟨hg, .nil⟩
  | cons x ss ih =>
    cases gs with
    | nil => have := h.1; simp at this
    | cons y gs =>
      obtain ⟨h1, h2⟩ := CarriesAll.cons_iff.mp h
      exact CarriesAll.cons_iff.mpr ⟨h1, ih h2⟩

theorem collect_groups : ∀ {ss : List SampledItem} {gs : List (List Entry)}, CarriesAll ss gs → ∀ done,
    gs.flatten.foldl collect ([], done) = ([], done ++ gs)
  | [], gs, h, done => by
    have : gs = [] := List.length_eq_zero_iff.mp h.1.symm
    simp [this]
  | s :: ss, [], h, done => by have := h.1; simp at this
  | s :: ss, g :: gs, h, done => by
    obtain ⟨h1, h2⟩ := CarriesAll.cons_iff.mp h
    rw [List.flatten_cons, List.foldl_append, collect_group h1, collect_groups h2]
    simp

theorem CarriesAll.samples : ∀ {ss : List SampledItem} {gs : List (List Entry)}, CarriesAll ss gs → (∀ s ∈ ss, s.Valid) →
    gs.map asSampleGrpc = ss.map asSampleLocal
  | [], gs, h, _ => by
    have : gs = [] := List.length_eq_zero_iff.mp h.1.symm
    simp [this]
  | s :: ss, [], h, _ => by have := h.1; simp at this
  | s :: ss, g :: gs, h, hv => by
    obtain ⟨h1, h2⟩ := CarriesAll.cons_iff.mp h
    rw [List.map_cons, List.map_cons, asSample_carries (hv s List.mem_cons_self) h1,
      CarriesAll.samples h2 fun x hx => hv x (List.mem_cons_of_mem _ hx)]

/-! ### The synchronous server -/

/-- The entries made of `e` and the chunks `cs`. -/
structure Built (s : SampledItem) (first : Bool) (e : Entry) (cs : List ChunkData) (es : List Entry) : Prop where
  data : es.flatMap Entry.data = e.data ++ cs
  info : es.head?.bind Entry.info = if first then some (s.info, s.traj) else e.info
  last : ∃ init x, es = init ++ [x] ∧ x.last = true ∧ ∀ y ∈ init, y.last = false

theorem Built.cons {s : SampledItem} {first : Bool} {e e' : Entry} {c : ChunkData} {cs : List ChunkData} {es : List Entry}
    (h : Built s false .empty cs es) (he : e' = ⟨if first then some (s.info, s.traj) else e.info, e.data ++ [c], false⟩) :
    Built s first e (c :: cs) (e' :: es) := by
  obtain ⟨init, x, h1, h2, h3⟩ := h.last
  subst he
  refine ⟨by simp [h.data, Entry.empty], by simp, ⟨_, x, by rw [h1, ← List.cons_append], h2, ?_⟩⟩
  intro y hy
  rcases List.mem_cons.mp hy with rfl | hy
  · rfl
  · exact h3 y hy

theorem split_built (size : Entry → Nat) (max : Nat) (s : SampledItem) : ∀ (cs : List ChunkData) (first : Bool) (e : Entry), cs ≠ [] →
    Built s first e cs (splitLoop size max s first e cs)
  | [], _, _, h => absurd rfl h
  | [c], first, e, _ => by
    simp only [splitLoop, List.isEmpty_nil, Bool.true_eq_false, false_and, if_false]
    exact ⟨by simp, by simp, ⟨[], _, rfl, rfl, by simp⟩⟩
  | c :: c' :: cs, first, e, _ => by
    rw [splitLoop]
    simp only [List.isEmpty_cons, true_and]
    generalize hinf : (if first then some (s.info, s.traj) else e.info) = inf
    split
    · have h := split_built size max s (c' :: cs) false ⟨inf, e.data ++ [c], false⟩ (by simp)
      exact ⟨by rw [h.data]; simp, by rw [h.info, hinf]; simp, h.last⟩
    · exact Built.cons (split_built size max s (c' :: cs) false .empty (by simp)) (by rw [hinf])

theorem split_carries (size : Entry → Nat) (max : Nat) {s : SampledItem} (h : s.chunks ≠ []) : Carries s (splitSync size max s) := by
  have hb := split_built size max s s.chunks true .empty h
  exact ⟨by rw [splitSync, hb.data]; rfl, by rw [splitSync, hb.info]; rfl, hb.last⟩

theorem split_carriesAll (size : Entry → Nat) (max : Nat) : ∀ {ss : List SampledItem}, (∀ s ∈ ss, s.chunks ≠ []) →
    CarriesAll ss (ss.map (splitSync size max))
  | [], _ => .nil
  | s :: _, h => CarriesAll.cons_iff.mpr ⟨split_carries size max (h s List.mem_cons_self),
      split_carriesAll size max fun x hx => h x (List.mem_cons_of_mem _ hx)⟩

/-! ### The asynchronous server -/

theorem modify_concat {α : Type} (f : α → α) (b : α) : ∀ qs : List α, (qs ++ [b]).modify qs.length f = qs ++ [f b]
  | [] => rfl
  | q :: qs => by
    have := modify_concat f b qs
    simpa using this

namespace Reactor

theorem writeDone_queue (r : Reactor) : r.writeDone.queue = r.queue.tail := by
  unfold writeDone sendNext
  simp only
  split <;> rfl

theorem modifyBack_queue (r : Reactor) (qs : List (List Entry)) (b : List Entry) (h : r.queue = qs ++ [b]) (f : List Entry → List Entry) :
    r.modifyBack f = { r with queue := qs ++ [f b] } := by
  simp only [modifyBack, h, List.length_append, List.length_singleton, Nat.add_sub_cancel]
  rw [modify_concat]

theorem addChunks_ok (bytes : ChunkData → Nat) (max : Nat) (s : SampledItem) : ∀ (cs : List ChunkData) (first : Bool) (r : Reactor)
    (qs : List (List Entry)) (b : List Entry) (e : Entry), cs ≠ [] → r.queue = qs ++ [b ++ [e]] →
    ∃ Q es, (addChunks bytes max s first r cs).queue = qs ++ Q ∧ Q ≠ [] ∧ Q.flatten = b ++ es ∧ Built s first e cs es ∧
      (addChunks bytes max s first r cs).written = r.written
  | [], _, _, _, _, _, h, _ => absurd rfl h
  | c :: cs, first, r, qs, b, e, _, hq => by
    have hm : r.modifyEntry (fun e => ⟨if first then some (s.info, s.traj) else e.info, e.data ++ [c], cs.isEmpty⟩) =
        { r with queue := qs ++ [b ++ [⟨if first then some (s.info, s.traj) else e.info, e.data ++ [c], cs.isEmpty⟩]] } := by
      rw [modifyEntry, modifyBack_queue r qs _ hq]
      congr 3
      rw [List.length_append, List.length_singleton, Nat.add_sub_cancel, modify_concat]
    rw [addChunks]
    simp only [hm]
    cases cs with
    | nil =>
      simp only [List.isEmpty_nil, Bool.true_eq_false, false_and, if_false, addChunks]
      refine ⟨[b ++ [⟨if first then some (s.info, s.traj) else e.info, e.data ++ [c], true⟩]],
        [⟨if first then some (s.info, s.traj) else e.info, e.data ++ [c], true⟩], rfl, by simp, by simp,
        ⟨by simp, by simp, ⟨[], _, rfl, rfl, by simp⟩⟩, trivial⟩
    | cons c' cs =>
      simp only [List.isEmpty_cons, true_and]
      split
      · rename_i hmax
        generalize hr1 : ({ r with
          queue := qs ++ [b ++ [(⟨if first = true then some (s.info, s.traj) else e.info, e.data ++ [c], false⟩ : Entry)]]
          size := r.size + bytes c } : Reactor) = r1
        have hq1 : (r1.emplace.modifyBack (· ++ [.empty])).queue =
            (qs ++ [b ++ [(⟨if first = true then some (s.info, s.traj) else e.info, e.data ++ [c], false⟩ : Entry)]]) ++ [[] ++ [.empty]] := by
          rw [modifyBack_queue r1.emplace _ [] (by subst hr1; rfl)]
        have hw1 : (r1.emplace.modifyBack (· ++ [.empty])).written = r.written := by subst hr1; rfl
        obtain ⟨Q, es, h1, h2, h3, h4, h5⟩ := addChunks_ok bytes max s (c' :: cs) false _ _ _ _ (by simp) hq1
        exact ⟨[b ++ [⟨if first then some (s.info, s.traj) else e.info, e.data ++ [c], false⟩]] ++ Q,
          ⟨if first then some (s.info, s.traj) else e.info, e.data ++ [c], false⟩ :: es, by rw [h1]; simp, by simp,
          by simp [h3], Built.cons h4 rfl, by rw [h5, hw1]⟩
      · obtain ⟨Q, es, h1, h2, h3, h4, h5⟩ := addChunks_ok bytes max s (c' :: cs) false { r with
          queue := qs ++ [b ++ [(⟨if first = true then some (s.info, s.traj) else e.info, e.data ++ [c], false⟩ : Entry)]]
          size := r.size + bytes c } qs b _ (by simp) rfl
        exact ⟨Q, es, h1, h2, h3, ⟨by rw [h4.data]; simp, by rw [h4.info]; simp, h4.last⟩, by rw [h5]⟩

/-- One sample is added behind what is in the queue; a response that is being written is not touched. -/
theorem processSample_ok (bytes : ChunkData → Nat) (max : Nat) (inFlight : Bool) (r : Reactor) {s : SampledItem} (hs : s.chunks ≠ []) :
    ∃ g, Carries s g ∧ (processSample bytes max inFlight r s).written = r.written ∧
      (processSample bytes max inFlight r s).queue.flatten = r.queue.flatten ++ g ∧
      ∀ q rest, r.queue = q :: rest → inFlight = true → ∃ rest', (processSample bytes max inFlight r s).queue = q :: rest' := by
  have key : ∀ (r1 : Reactor) (qs : List (List Entry)) (b : List Entry), r1.queue = qs ++ [b] →
      ∃ g, Carries s g ∧ (addChunks bytes max s true (r1.modifyBack (· ++ [.empty])) s.chunks).written = r1.written ∧
        (addChunks bytes max s true (r1.modifyBack (· ++ [.empty])) s.chunks).queue.flatten = r1.queue.flatten ++ g ∧
        ∃ Q, (addChunks bytes max s true (r1.modifyBack (· ++ [.empty])) s.chunks).queue = qs ++ Q := by
    intro r1 qs b hq
    rw [modifyBack_queue r1 qs b hq]
    obtain ⟨Q, es, h1, h2, h3, h4, h5⟩ := addChunks_ok bytes max s s.chunks true { r1 with queue := qs ++ [b ++ [.empty]] } qs b .empty hs rfl
    refine ⟨es, ⟨by have := h4.data; simpa [Entry.empty] using this, by have := h4.info; simpa using this, h4.last⟩, h5, ?_, Q, h1⟩
    rw [h1, hq]
    simp [h3]
  unfold processSample
  simp only
  split
  · obtain ⟨g, h1, h2, h3, Q, h4⟩ := key r.emplace r.queue [] rfl
    refine ⟨g, h1, h2, ?_, ?_⟩
    · rw [h3]
      simp [emplace]
    · intro q rest hq _
      exact ⟨rest ++ Q, by rw [h4, hq]; simp⟩
  · rename_i hc
    simp only [not_or, not_and] at hc
    have hne : r.queue ≠ [] := hc.1
    have hq := List.dropLast_concat_getLast hne
    obtain ⟨g, h1, h2, h3, Q, h4⟩ := key r _ _ hq.symm
    refine ⟨g, h1, h2, h3, ?_⟩
    intro q rest hq' hin
    have hlen : r.queue.length ≠ 1 := fun h => hc.2.1 h hin
    rw [hq'] at hlen h4
    cases rest with
    | nil => simp at hlen
    | cons x xs => exact ⟨(x :: xs).dropLast ++ Q, by rw [h4]; simp⟩

theorem samples_ok (bytes : ChunkData → Nat) (max : Nat) (inFlight : Bool) : ∀ (ss : List SampledItem) (r : Reactor), (∀ s ∈ ss, s.chunks ≠ []) →
    ∃ gs, CarriesAll ss gs ∧ (ss.foldl (processSample bytes max inFlight) r).written = r.written ∧
      (ss.foldl (processSample bytes max inFlight) r).queue.flatten = r.queue.flatten ++ gs.flatten ∧
      ∀ q rest, r.queue = q :: rest → inFlight = true → ∃ rest', (ss.foldl (processSample bytes max inFlight) r).queue = q :: rest'
  | [], r, _ => ⟨[], .nil, rfl, by simp, fun q rest hq _ => ⟨rest, hq⟩⟩
  | s :: ss, r, h => by
    obtain ⟨g, h1, h2, h3, h4⟩ := processSample_ok bytes max inFlight r (h s List.mem_cons_self)
    obtain ⟨gs, g1, g2, g3, g4⟩ := samples_ok bytes max inFlight ss (processSample bytes max inFlight r s)
      fun x hx => h x (List.mem_cons_of_mem _ hx)
    refine ⟨g :: gs, CarriesAll.cons_iff.mpr ⟨h1, g1⟩, by rw [List.foldl_cons, g2, h2], by rw [List.foldl_cons, g3, h3]; simp, ?_⟩
    intro q rest hq hin
    obtain ⟨rest', hr⟩ := h4 q rest hq hin
    exact g4 q rest' hr hin

/-- The entries written or waiting carry the samples, and the front of the queue is the last response that was written. -/
structure Inv (r : Reactor) (done : List SampledItem) : Prop where
  front : ∀ q rest, r.queue = q :: rest → ∃ w, r.written = w ++ [q]
  groups : ∃ gs, CarriesAll done gs ∧ r.written.flatten ++ r.queue.tail.flatten = gs.flatten

theorem CarriesAll.append : ∀ {a : List SampledItem} {ga : List (List Entry)} {b : List SampledItem} {gb : List (List Entry)},
    CarriesAll a ga → CarriesAll b gb → CarriesAll (a ++ b) (ga ++ gb)
  | [], ga, b, gb, h, h' => by
    have : ga = [] := List.length_eq_zero_iff.mp h.1.symm
    subst this
    exact h'
  | s :: a, [], _, _, h, _ => by have := h.1; simp at this
  | s :: a, g :: ga, _, _, h, h' => by
    obtain ⟨h1, h2⟩ := CarriesAll.cons_iff.mp h
    exact CarriesAll.cons_iff.mpr ⟨h1, CarriesAll.append h2 h'⟩

theorem inv_step {bytes : ChunkData → Nat} {max : Nat} {r : Reactor} {done : List SampledItem} (h : Inv r done) (ev : Event)
    (hv : ∀ s ∈ samplesOf [ev], s.chunks ≠ []) : Inv (r.step bytes max ev) (done ++ samplesOf [ev]) := by
  obtain ⟨hfront, gs, hgs, hent⟩ := h
  cases ev with
  | writeDone =>
    simp only [samplesOf, List.flatMap_cons, List.flatMap_nil, List.append_nil, step]
    split
    · exact ⟨hfront, gs, hgs, hent⟩
    · cases hq : r.queue with
      | nil => contradiction
      | cons q rest =>
        simp only [writeDone, sendNext, hq, List.tail_cons]
        rw [hq, List.tail_cons] at hent
        cases rest with
        | nil => exact ⟨by simp, gs, hgs, by simpa using hent⟩
        | cons q' rest =>
          refine ⟨fun q0 r0 he => ?_, gs, hgs, ?_⟩
          · simp only [List.cons.injEq] at he
            exact ⟨r.written, by rw [he.1]⟩
          · simpa using hent
  | batch ss =>
    simp only [samplesOf, List.flatMap_cons, List.flatMap_nil, List.append_nil] at hv ⊢
    simp only [step, sampled]
    obtain ⟨g, h1, h2, h3, h4⟩ := samples_ok bytes max (!r.queue.isEmpty) ss r hv
    cases hq : r.queue with
    | nil =>
      rw [hq] at h2 h3 hent
      simp only [List.isEmpty_nil, Bool.not_true] at h2 h3
      simp only [List.isEmpty_nil, Bool.not_true, Bool.false_eq_true, if_false]
      simp only [List.tail_nil, List.flatten_nil, List.append_nil, List.nil_append] at hent h3
      generalize hr' : ss.foldl (processSample bytes max false) r = r' at h2 h3
      simp only [sendNext]
      cases hq' : r'.queue with
      | nil =>
        rw [hq'] at h3
        refine ⟨by simp [hq'], gs ++ g, CarriesAll.append hgs h1, ?_⟩
        simp only [hq', h2, hent, List.flatten_append, ← h3]
        simp
      | cons q rest =>
        simp only
        refine ⟨fun q0 r0 he => ?_, gs ++ g, CarriesAll.append hgs h1, ?_⟩
        · simp only [List.cons.injEq] at he
          exact ⟨r'.written, by rw [he.1]⟩
        · rw [hq'] at h3
          simp only [h2, List.flatten_append, hent, ← h3]
          simp
    | cons q rest =>
      simp only [hq, List.isEmpty_cons, Bool.not_false] at h2 h3 h4
      simp only [List.isEmpty_cons, Bool.not_false, if_true]
      obtain ⟨rest', hr'⟩ := h4 q rest rfl trivial
      obtain ⟨w, hw⟩ := hfront q rest hq
      refine ⟨fun q0 r0 he => ?_, gs ++ g, CarriesAll.append hgs h1, ?_⟩
      · rw [hr'] at he
        simp only [List.cons.injEq] at he
        exact ⟨w, by rw [h2, hw, he.1]⟩
      · rw [hr'] at h3
        rw [hq] at hent
        simp only [List.flatten_cons, List.append_assoc, List.append_cancel_left_eq] at h3
        simp only [hr', List.tail_cons, h2, List.flatten_append] at hent ⊢
        rw [← hent, h3, List.append_assoc]

theorem inv_run {bytes : ChunkData → Nat} {max : Nat} : ∀ (evs : List Event) {r : Reactor} {done : List SampledItem}, Inv r done →
    (∀ s ∈ samplesOf evs, s.chunks ≠ []) → Inv (r.run bytes max evs) (done ++ samplesOf evs)
  | [], r, done, h, _ => by simpa [samplesOf, run] using h
  | ev :: evs, r, done, h, hv => by
    have hs : samplesOf (ev :: evs) = samplesOf [ev] ++ samplesOf evs := by simp [samplesOf]
    rw [hs] at hv ⊢
    rw [← List.append_assoc]
    exact inv_run evs (inv_step h ev fun s hm => hv s (List.mem_append_left _ hm)) fun s hm => hv s (List.mem_append_right _ hm)

end Reactor

/-! ### Collecting only a part of the entries -/

theorem collect_prefix (es : List Entry) : ∀ st : List Entry × List (List Entry), ∃ more, (es.foldl collect st).2 = st.2 ++ more := by
  induction es with
  | nil => exact fun st => ⟨[], by simp⟩
  | cons e es ih =>
    intro st
    obtain ⟨more, h⟩ := ih (collect st e)
    rw [List.foldl_cons, h]
    unfold collect
    split
    · exact ⟨_, by rw [List.append_assoc]⟩
    · exact ⟨more, rfl⟩

end Verif
