import Verif.Spec.SigCache
/-
Lemmas about the cache of signatures.
-/
namespace Verif
namespace SigCache

theorem servers_snoc (server : Info) (evs : List Event) (e : Event) :
    servers server (evs ++ [e]) = servers server evs ++ match e with
      | .replace i => [i]
      | _ => [] := by
  cases e <;> simp [servers, List.filterMap_append]

theorem mem_servers_snoc {server : Info} {evs : List Event} {i : Info} (e : Event) (h : i ∈ servers server evs) : i ∈ servers server (evs ++ [e]) := by
  rw [servers_snoc]; exact List.mem_append_left _ h

/-- What holds in all reachable states. -/
structure Inv (server : Info) (evs : List Event) (c : Client) : Prop where
  now : c.server = present server evs
  cache : ∀ id s, c.cache = some (id, s) → ∃ i ∈ servers server evs, i.id = id ∧ i.Tells s
  calls : ∀ t r i, c.calls.get? t = some ⟨r, some i⟩ → i ∈ servers server evs
  sigs : ∀ t s, (t, Out.signatures (.ok s)) ∈ c.log → (s = .empty ∧ ∃ t, Event.make t true ∈ evs) ∨ ∃ i ∈ servers server evs, i.Tells s
  infos : ∀ i ∈ infos c.log, i ∈ servers server evs
  heard : Heard evs c.log → c.cache.isSome
  py : c.py = ((SigCache.infos c.log).find? fun i => !i.tables.isEmpty).elim [] Info.tables

theorem present_mem (server : Info) (evs : List Event) : present server evs ∈ servers server evs := List.getLast_mem _

theorem present_snoc (server : Info) (evs : List Event) (e : Event) :
    present server (evs ++ [e]) = match e with
      | .replace i => i
      | _ => present server evs := by
  unfold present
  simp only [servers_snoc]
  cases e <;> simp

theorem update_tells {cache : Option (Nat × Signatures)} {i : Info} {id : Nat} {s : Signatures} (h : update cache i = .ok (id, s)) :
    cache = some (id, s) ∨ id = i.id ∧ i.Tells s := by
  unfold update at h
  split at h
  · split at h
    · split at h <;> cases h
      rename_i hf
      exact .inr ⟨rfl, hf⟩
    · cases h; exact .inl rfl
  · split at h <;> cases h
    rename_i hf
    exact .inr ⟨rfl, hf⟩

theorem infos_append (l m : List (Nat × Out)) : infos (l ++ m) = infos l ++ infos m := by simp [infos, List.filterMap_append]

theorem Inv.init (server : Info) : Inv server [] (Client.init server) where
  now := rfl
  cache := by intro _ _ h; cases h
  calls := by intro t r i h; simp [Client.init] at h
  sigs := by intro _ _ h; cases h
  infos := by intro _ h; cases h
  heard := by
    rintro (⟨i, h⟩ | ⟨_, t, s, h⟩) <;> cases h
  py := rfl

theorem heard_mono {evs : List Event} {e : Event} {log : List (Nat × Out)} (h : Heard (evs ++ [e]) log) : Heard evs log := by
  rcases h with h | ⟨h1, h2⟩
  · exact .inl h
  · exact .inr ⟨fun t ht => h1 t (List.mem_append_left _ ht), h2⟩

/-- A call that ends without a new signature or info. -/
theorem Inv.log_err {server : Info} {evs : List Event} {c : Client} (h : Inv server evs c) {t : Nat} {o : Out} (ho : (∀ s, o ≠ .signatures (.ok s)) ∧ ∀ i, o ≠ .info (.ok i)) :
    Inv server evs (c.finish t o) where
  now := h.now
  cache := h.cache
  calls := by
    intro t' r i hc
    simp only [Client.finish, AMap.get?_erase] at hc
    split at hc
    · cases hc
    · exact h.calls t' r i hc
  sigs := by
    intro t' s hm
    simp only [Client.finish, List.mem_append, List.mem_singleton, Prod.mk.injEq] at hm
    rcases hm with hm | ⟨_, hm⟩
    · exact h.sigs t' s hm
    · exact absurd hm.symm (ho.1 s)
  infos := by
    intro i hi
    simp only [Client.finish, infos_append, List.mem_append] at hi
    rcases hi with hi | hi
    · exact h.infos i hi
    · simp only [SigCache.infos, List.mem_filterMap, List.mem_singleton] at hi
      obtain ⟨x, rfl, hx⟩ := hi
      simp only at hx
      split at hx
      · exact absurd rfl (ho.2 _)
      · cases hx
  heard := by
    intro hh
    refine h.heard ?_
    rcases hh with ⟨i, hi⟩ | ⟨h1, t', s, hm⟩
    · simp only [Client.finish, infos_append, List.mem_append] at hi
      rcases hi with hi | hi
      · exact .inl ⟨i, hi⟩
      · simp only [SigCache.infos, List.mem_filterMap, List.mem_singleton] at hi
        obtain ⟨x, rfl, hx⟩ := hi
        simp only at hx
        split at hx
        · exact absurd rfl (ho.2 _)
        · cases hx
    · simp only [Client.finish, List.mem_append, List.mem_singleton, Prod.mk.injEq] at hm
      rcases hm with hm | ⟨_, hm⟩
      · exact .inr ⟨h1, t', s, hm⟩
      · exact absurd hm.symm (ho.1 s)
  py := by
    have : SigCache.infos [(t, o)] = [] := by
      unfold SigCache.infos
      rw [List.filterMap_cons]
      split
      · rfl
      · rename_i hx
        simp only at hx
        split at hx
        · exact absurd rfl (ho.2 _)
        · cases hx
    simp only [Client.finish, infos_append, this, List.append_nil]
    exact h.py

theorem Inv.mono {server : Info} {evs : List Event} {c : Client} (h : Inv server evs c) (e : Event) (hr : ∀ i, e ≠ .replace i) : Inv server (evs ++ [e]) c where
  now := by
    rw [h.now, present_snoc]
    cases e <;> first | rfl | exact absurd rfl (hr _)
  cache := fun id s hc => by
    obtain ⟨i, h1, h2⟩ := h.cache id s hc
    exact ⟨i, mem_servers_snoc e h1, h2⟩
  calls := fun t r i hc => mem_servers_snoc e (h.calls t r i hc)
  sigs := fun t s hm => by
    rcases h.sigs t s hm with ⟨h1, u, h2⟩ | ⟨i, h1, h2⟩
    · exact .inl ⟨h1, u, List.mem_append_left _ h2⟩
    · exact .inr ⟨i, mem_servers_snoc e h1, h2⟩
  infos := fun i hi => mem_servers_snoc e (h.infos i hi)
  heard := fun hh => h.heard (heard_mono hh)
  py := h.py

theorem Inv.step {server : Info} {evs : List Event} {c c' : Client} (h : Inv server evs c) {e : Event} (hs : c.step e = some c') : Inv server (evs ++ [e]) c' := by
  cases e with
  | replace i =>
    cases hs
    exact ⟨by rw [present_snoc], fun id s hc => by
        obtain ⟨j, h1, h2⟩ := h.cache id s hc
        exact ⟨j, mem_servers_snoc _ h1, h2⟩,
      fun t r j hc => mem_servers_snoc _ (h.calls t r j hc), fun t s hm => by
        rcases h.sigs t s hm with ⟨h1, u, h2⟩ | ⟨j, h1, h2⟩
        · exact .inl ⟨h1, u, List.mem_append_left _ h2⟩
        · exact .inr ⟨j, mem_servers_snoc _ h1, h2⟩,
      fun j hj => mem_servers_snoc _ (h.infos j hj), fun hh => h.heard (heard_mono hh), h.py⟩
  | make t atOnce =>
    simp only [Client.step] at hs
    split at hs
    · cases hs
    · have hm := h.mono (.make t atOnce) (fun i hc => by cases hc)
      split at hs
      · rename_i id s hc
        cases hs
        have hin : ∀ i, i ∈ SigCache.infos (c.log ++ [(t, Out.signatures (.ok s))]) ↔ i ∈ SigCache.infos c.log := fun i => by
          rw [infos_append]; simp [SigCache.infos]
        refine ⟨hm.now, hm.cache, hm.calls, fun t' s' hx => ?_, fun i hi => hm.infos i ((hin i).mp hi), fun _ => ?_, ?_⟩
        · simp only [List.mem_append, List.mem_singleton, Prod.mk.injEq] at hx
          rcases hx with hx | ⟨_, hx⟩
          · exact hm.sigs t' s' hx
          · cases hx
            obtain ⟨i, h1, _, h2⟩ := hm.cache id s hc
            exact .inr ⟨i, h1, h2⟩
        · simp only; rw [hc]; rfl
        · have : SigCache.infos [(t, Out.signatures (.ok s))] = [] := rfl
          simp only [infos_append, this, List.append_nil]
          exact h.py
      · rename_i hc
        split at hs
        · rename_i ha
          subst ha
          cases hs
          have hin : ∀ i, i ∈ SigCache.infos (c.log ++ [(t, Out.signatures (.ok .empty))]) ↔ i ∈ SigCache.infos c.log := fun i => by
            rw [infos_append]; simp [SigCache.infos]
          refine ⟨hm.now, hm.cache, hm.calls, fun t' s' hx => ?_, fun i hi => hm.infos i ((hin i).mp hi), fun hh => ?_, ?_⟩
          · simp only [List.mem_append, List.mem_singleton, Prod.mk.injEq] at hx
            rcases hx with hx | ⟨_, hx⟩
            · exact hm.sigs t' s' hx
            · cases hx
              exact .inl ⟨rfl, t, by simp⟩
          · rcases hh with ⟨i, hi⟩ | ⟨h1, _⟩
            · exact h.heard (.inl ⟨i, (hin i).mp hi⟩)
            · exact absurd (by simp) (h1 t)
          · have : SigCache.infos [(t, Out.signatures (.ok .empty))] = [] := rfl
            simp only [infos_append, this, List.append_nil]
            exact h.py
        · cases hs
          refine ⟨hm.now, hm.cache, fun t' r i hx => ?_, hm.sigs, hm.infos, hm.heard, hm.py⟩
          simp only [AMap.get?_insert] at hx
          split at hx
          · cases hx
          · exact hm.calls t' r i hx
  | info t =>
    simp only [Client.step] at hs
    split at hs
    · cases hs
    · cases hs
      have hm := h.mono (.info t) (fun i hc => by cases hc)
      refine ⟨hm.now, hm.cache, fun t' r i hx => ?_, hm.sigs, hm.infos, hm.heard, hm.py⟩
      simp only [AMap.get?_insert] at hx
      split at hx
      · cases hx
      · exact hm.calls t' r i hx
  | answer t =>
    simp only [Client.step] at hs
    split at hs
    · cases hs
      have hm := h.mono (.answer t) (fun i hc => by cases hc)
      refine ⟨hm.now, hm.cache, fun t' r i hx => ?_, hm.sigs, hm.infos, hm.heard, hm.py⟩
      simp only [AMap.get?_insert] at hx
      split at hx
      · cases hx
        rw [hm.now]
        exact present_mem _ _
      · exact hm.calls t' r i hx
    · cases hs
  | fail t e =>
    simp only [Client.step] at hs
    split at hs
    · cases hs
      refine (h.mono (.fail t e) (fun i hc => by cases hc)).log_err ?_
      split <;> exact ⟨(fun _ hc => by cases hc), (fun _ hc => by cases hc)⟩
    · cases hs
  | store t =>
    simp only [Client.step] at hs
    split at hs
    · rename_i r i hcall
      have hm := h.mono (.store t) (fun i hc => by cases hc)
      have hi := hm.calls t r i hcall
      split at hs
      · rename_i id s hu
        have htell : ∃ j ∈ servers server (evs ++ [.store t]), j.id = id ∧ j.Tells s := by
          rcases update_tells hu with hc | ⟨h1, h2⟩
          · exact hm.cache id s hc
          · exact ⟨i, hi, h1.symm, h2⟩
        have herase : ∀ t' r' i', (c.calls.erase t).get? t' = some ⟨r', some i'⟩ → i' ∈ servers server (evs ++ [.store t]) := by
          intro t' r' i' hx
          rw [AMap.get?_erase] at hx
          split at hx
          · cases hx
          · exact hm.calls t' r' i' hx
        split at hs
        · cases hs
          refine ⟨hm.now, fun id' s' hc => ?_, herase, fun t' s' hx => ?_, fun j hj => ?_, fun _ => rfl, ?_⟩
          · simp only [Client.finish, Option.some.injEq, Prod.mk.injEq] at hc
            obtain ⟨rfl, rfl⟩ := hc
            exact htell
          · simp only [Client.finish, List.mem_append, List.mem_singleton, Prod.mk.injEq] at hx
            rcases hx with hx | ⟨_, hx⟩
            · exact hm.sigs t' s' hx
            · cases hx
          · simp only [Client.finish, infos_append, List.mem_append] at hj
            rcases hj with hj | hj
            · exact hm.infos j hj
            · simp only [SigCache.infos, List.filterMap_cons, List.filterMap_nil, List.mem_singleton] at hj
              subst hj; exact hi
          · have : SigCache.infos [(t, Out.info (.ok i))] = [i] := rfl
            simp only [Client.finish, infos_append, this, List.find?_append, pyFill]
            have hpy := h.py
            cases hf : (SigCache.infos c.log).find? fun i => !i.tables.isEmpty with
            | none =>
              rw [hf] at hpy
              simp only [Option.elim] at hpy
              rw [hpy]
              cases hte : i.tables with
              | nil => simp [hte]
              | cons a l => simp [hte]
            | some j =>
              rw [hf] at hpy
              simp only [Option.elim] at hpy
              have hne : j.tables.isEmpty = false := by
                have := List.find?_some hf
                simpa using this
              simp [hpy, hne]
        · cases hs
          refine ⟨hm.now, fun id' s' hc => ?_, herase, fun t' s' hx => ?_, fun j hj => ?_, fun _ => rfl, ?_⟩
          · simp only [Client.finish, Option.some.injEq, Prod.mk.injEq] at hc
            obtain ⟨rfl, rfl⟩ := hc
            exact htell
          · simp only [Client.finish, List.mem_append, List.mem_singleton, Prod.mk.injEq] at hx
            rcases hx with hx | ⟨_, hx⟩
            · exact hm.sigs t' s' hx
            · cases hx
              obtain ⟨j, h1, _, h2⟩ := htell
              exact .inr ⟨j, h1, h2⟩
          · simp only [Client.finish, infos_append, List.mem_append] at hj
            rcases hj with hj | hj
            · exact hm.infos j hj
            · simp [SigCache.infos] at hj
          · have : SigCache.infos [(t, Out.signatures (.ok s))] = [] := rfl
            simp only [Client.finish, infos_append, this, List.append_nil]
            exact h.py
      · cases hs
        refine hm.log_err ?_
        split <;> exact ⟨(fun _ hc => by cases hc), (fun _ hc => by cases hc)⟩
      · cases hs
        refine hm.log_err ?_
        split <;> exact ⟨(fun _ hc => by cases hc), (fun _ hc => by cases hc)⟩
    · cases hs

theorem Inv.run {server : Info} {pre evs : List Event} {c c' : Client} (h : Inv server pre c) (hr : c.run evs = some c') : Inv server (pre ++ evs) c' := by
  induction evs generalizing pre c with
  | nil => cases hr; simpa using h
  | cons e es ih =>
    simp only [Client.run] at hr
    split at hr
    · cases hr
    · rename_i c1 hs
      have := ih (h.step hs) hr
      simpa using this

theorem run_append {c c' : Client} {a b : List Event} (h : c.run (a ++ b) = some c') : ∃ c1, c.run a = some c1 ∧ c1.run b = some c' := by
  induction a generalizing c with
  | nil => exact ⟨c, rfl, h⟩
  | cons e es ih =>
    simp only [List.cons_append, Client.run] at h ⊢
    split at h
    · cases h
    · exact ih h

end SigCache
end Verif
