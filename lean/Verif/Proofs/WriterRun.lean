import Verif.Proofs.WriterInv
/-
Runs of the old writer.
-/
namespace Verif
namespace Writer

theorem run_ret {w w' : Writer} {c : Call} {as as' : List Answer} {r : Option Code} (h : w.call c as = (w', .ret r, as')) (evs : List Event) :
    w.run ((c, as) :: evs) = w'.run evs := by
  rw [Writer.run, h]

theorem run_cons {w w2 : Writer} {c : Call} {as : List Answer} {evs : List Event} (h : w.run ((c, as) :: evs) = some w2) :
    (∃ r, (w.call c as).2.1 = .ret r) ∧ (w.call c as).1.run evs = some w2 ∧ ∀ evs, w.run ((c, as) :: evs) = (w.call c as).1.run evs := by
  obtain ⟨⟨w', r, as'⟩, he⟩ : ∃ x, w.call c as = x := ⟨_, rfl⟩
  cases r with
  | ret r =>
    rw [run_ret he] at h
    exact ⟨⟨r, by rw [he]⟩, by rw [he]; exact h, fun evs => by rw [run_ret he, he]⟩
  | blocked => rw [Writer.run, he] at h; cases h
  | died => rw [Writer.run, he] at h; cases h

theorem run_append {w w1 : Writer} : ∀ {pre : List Event}, w.run pre = some w1 → ∀ evs, w.run (pre ++ evs) = w1.run evs
  | [], h, evs => by
    simp only [run, Option.some.injEq] at h
    rw [h, List.nil_append]
  | (c, as) :: pre, h, evs => by
    obtain ⟨_, h1, h2⟩ := run_cons h
    rw [List.cons_append, h2]
    exact run_append h1 evs

theorem run_split {w2 : Writer} : ∀ {w : Writer} {pre : List Event} {evs : List Event}, w.run (pre ++ evs) = some w2 → ∃ w1, w.run pre = some w1 ∧ w1.run evs = some w2
  | w, [], evs, h => ⟨w, rfl, h⟩
  | w, (c, as) :: pre, evs, h => by
    rw [List.cons_append] at h
    obtain ⟨_, h1, h2⟩ := run_cons h
    rw [h2]
    exact run_split h1

theorem history_append {w w1 : Writer} : ∀ {pre : List Event}, w.run pre = some w1 → ∀ evs, w.history (pre ++ evs) = w.history pre ++ w1.history evs
  | [], h, evs => by
    simp only [run, Option.some.injEq] at h
    rw [h]
    rfl
  | (c, as) :: pre, h, evs => by
    rw [List.cons_append, history, history, history_append (run_cons h).2.1 evs, List.append_assoc]

theorem allSound_append {w w1 : Writer} {m : Nat} : ∀ {pre : List Event}, w.run pre = some w1 → ∀ evs,
    w.AllSound m (pre ++ evs) ↔ w.AllSound m pre ∧ w1.AllSound m evs
  | [], h, evs => by
    simp only [run, Option.some.injEq] at h
    rw [h]
    simp [AllSound]
  | (c, as) :: pre, h, evs => by
    rw [List.cons_append, AllSound, AllSound, allSound_append (run_cons h).2.1 evs, and_assoc]

theorem AskedFor.mono {w : Writer} {evs : List Event} {it : WItem} {x : List Timestep} (h : w.AskedFor evs it x) (e : List Event) :
    w.AskedFor (evs ++ e) it x := by
  obtain ⟨pre, table, priority, as, post, w1, n, h1, h2⟩ := h
  exact ⟨pre, table, priority, as, post ++ e, w1, n, by rw [h1, List.append_assoc]; rfl, h2⟩

theorem event_step {w w1 : Writer} {m : Nat} {pre : List Event} (hrun : w.run pre = some w1)
    (hi : Inv (w.AskedFor pre) m (w.history pre) w1) {c : Call} {as : List Answer} (hs : w1.Sound m (c, as)) :
    Step (w.AskedFor (pre ++ [(c, as)])) m (w.history (pre ++ [(c, as)])) w1 (w1.call c as) := by
  have : w.history (pre ++ [(c, as)]) = w.history pre ++ w1.appended (c, as) := by
    rw [history_append hrun]
    simp [history]
  rw [this]
  refine call_step (fun it x h => h.mono _) hi hs ?_
  rintro table priority traj n rfl hdr hle
  exact ⟨pre, table, priority, as, [], w1, n, rfl, hrun, rfl, hdr, rfl, rfl, hle, rfl⟩

theorem run_inv {w : Writer} {m : Nat} : ∀ {evs pre : List Event} {w1 w2 : Writer}, w.run pre = some w1 → Inv (w.AskedFor pre) m (w.history pre) w1 →
    w1.AllSound m evs → w1.run evs = some w2 → Inv (w.AskedFor (pre ++ evs)) m (w.history (pre ++ evs)) w2 ∧
      (∀ it, it ∈ w1.pending ∨ w1.OnStream it → it ∈ w2.pending ∨ w2.OnStream it) ∧ w2.gen = w1.gen ∧ w1.drawn ≤ w2.drawn
  | [], pre, w1, w2, hrun, hi, hs, h => by
    simp only [run, Option.some.injEq] at h
    subst h
    rw [List.append_nil]
    exact ⟨hi, fun _ h => h, rfl, Nat.le_refl _⟩
  | (c, as) :: evs, pre, w1, w2, hrun, hi, hs, h => by
    obtain ⟨⟨r, hr⟩, h1, h2⟩ := run_cons h
    have st := event_step hrun hi hs.1
    have hrun' : w.run (pre ++ [(c, as)]) = some (w1.call c as).1 := by rw [run_append hrun, h2]; rfl
    have := run_inv hrun' (st.inv r hr) hs.2 h1
    rw [List.append_assoc] at this
    obtain ⟨k1, k2, k3, k4⟩ := this
    refine ⟨k1, fun it hit => k2 it ?_, k3.trans st.gen, Nat.le_trans st.drawn k4⟩
    rcases hit with hit | hit
    · exact st.kept it hit
    · exact .inr (st.grow it hit)

theorem Inv.start {w : Writer} (hn : w.New) (m : Nat) : Inv (w.AskedFor []) m (w.history []) w := Inv.new hn _ m

theorem inv_of_run {w w1 : Writer} (hn : w.New) {m : Nat} {evs : List Event} (hs : w.AllSound m evs) (hrun : w.run evs = some w1) :
    Inv (w.AskedFor evs) m (w.history evs) w1 := (run_inv (pre := []) rfl (Inv.start hn m) hs hrun).1

/-- No two calls draw the same key. -/
theorem askedFor_unique {w : Writer} (hn : w.New) {m : Nat} {pre pre' post post' : List Event} {e e' : Event} {w1 w1' : Writer}
    (he : pre ++ e :: post = pre' ++ e' :: post') (hs : w.AllSound m (pre ++ [e])) (hs' : w.AllSound m (pre' ++ [e']))
    (h1 : w.run pre = some w1) (h1' : w.run pre' = some w1')
    (hd : (w1.call e.1 e.2).1.drawn = w1.drawn + 1) (hd' : (w1'.call e'.1 e'.2).1.drawn = w1'.drawn + 1)
    (hk : w1.gen w1.drawn = w1'.gen w1'.drawn) : pre = pre' ∧ e = e' := by
  have key : ∀ {pre pre' post post' : List Event} {e e' : Event} {w1 w1' : Writer}, pre ++ e :: post = pre' ++ e' :: post' →
      w.AllSound m (pre' ++ [e']) → w.run pre = some w1 → w.run pre' = some w1' → (w1.call e.1 e.2).1.drawn = w1.drawn + 1 →
      w1.gen w1.drawn = w1'.gen w1'.drawn → ¬ pre.length < pre'.length := by
    intro pre pre' post post' e e' w1 w1' he hs h1 h1' hd hk hlt
    obtain ⟨mid, rfl⟩ : ∃ mid, pre' = pre ++ e :: mid := by
      have hp : pre <+: pre' := List.prefix_of_prefix_length_le (List.prefix_append pre (e :: post)) (by rw [he]; exact List.prefix_append _ _) (Nat.le_of_lt hlt)
      obtain ⟨t, rfl⟩ := hp
      cases t with
      | nil => simp at hlt
      | cons a mid =>
        rw [List.append_assoc, List.append_cancel_left_eq, List.cons_append, List.cons.injEq] at he
        exact ⟨mid, by rw [he.1]⟩
    have g := h1'
    rw [run_append h1] at g
    have hs2 := ((allSound_append h1' [e']).mp hs).1
    obtain ⟨hsa, hsb⟩ := (allSound_append h1 _).mp hs2
    have i1 := inv_of_run hn hsa h1
    obtain ⟨⟨r, hr⟩, g1, g2⟩ := run_cons g
    have st := event_step h1 i1 (c := e.1) (as := e.2) hsb.1
    have hrun' : w.run (pre ++ [e]) = some (w1.call e.1 e.2).1 := by rw [run_append h1]; exact g2 []
    obtain ⟨_, _, k3, k4⟩ := run_inv hrun' (st.inv r hr) hsb.2 g1
    have hinj := i1.inj
    have := st.gen
    rw [k3, this] at hk
    have := hinj _ _ hk
    omega
  have hlen : pre.length = pre'.length :=
    Nat.le_antisymm (Nat.not_lt.mp (key he.symm hs h1' h1 hd' hk.symm)) (Nat.not_lt.mp (key he hs' h1 h1' hd hk))
  obtain ⟨a, b⟩ := List.append_inj he hlen
  rw [List.cons.injEq] at b
  exact ⟨a, b.1⟩

theorem serve_item {srv : Server} {cache cache' : Cache} {msg : Msg} {ins : Option (WItem × List ChunkData)}
    (h : serve srv cache msg = .ok (cache', ins)) : ins.map Prod.fst = msg.item.map Prod.fst := by
  unfold serve at h
  repeat' split at h
  all_goals cases h
  all_goals simp [*]

theorem serveAll_items {srv : Server} : ∀ {s : List Msg} {cache0 cache : Cache} {ins : List (WItem × List ChunkData)},
    serveAll srv cache0 s = .ok (cache, ins) → ins.map Prod.fst = itemsOf s
  | [], cache0, cache, ins, h => by
    simp only [serveAll, Res.ok.injEq, Prod.mk.injEq] at h
    rw [← h.2]
    rfl
  | m :: s, cache0, cache, ins, h => by
    simp only [serveAll] at h
    rcases h1 : serve srv cache0 m with ⟨c1, i1⟩ | _ | _ <;> simp only [h1] at h
    · rcases h2 : serveAll srv c1 s with ⟨c2, i2⟩ | _ | _ <;> simp only [h2] at h
      · simp only [Res.ok.injEq, Prod.mk.injEq] at h
        obtain ⟨_, rfl⟩ := h
        rw [List.map_append, serveAll_items h2]
        have := serve_item h1
        simp only [itemsOf, List.filterMap_cons]
        cases i1 <;> cases hm : m.item <;> simp_all
      · cases h
      · cases h
    · cases h
    · cases h

theorem flush_pending {A : WItem → List Timestep → Prop} {m : Nat} {H : List Timestep} {w : Writer} (hi : Inv A m H w) {as : List Answer}
    (hs : .finish none ∉ as) (hr : (w.flush as).2.1 = .ret none) : (w.flush as).1.pending = [] := by
  revert hr
  unfold flush
  by_cases hc : w.closed = true
  · rw [if_pos hc]; simp
  have hc' : w.closed = false := by simpa using hc
  rw [if_neg hc]
  obtain ⟨ρ, hd⟩ := hi.data hc'
  split
  · intro hr
    exact ((finish_spec hi.inj hi.sinv hd true as).ok hr hs).1
  · rename_i hp
    have hp : w.pending = [] := Classical.not_not.mp hp
    have hq := confirmItems_quiet 0 as w
    obtain ⟨⟨w1, r1, as1⟩, he⟩ : ∃ x, confirmItems 0 as w = x := ⟨_, rfl⟩
    rw [he] at hq ⊢
    have hq : w.Quiet w1 := hq
    have h1 : w1.pending = [] := by rw [hq.pending, hp]
    cases r1 with
    | blocked => exact fun _ => h1
    | died => exact fun _ => h1
    | ret b => cases b <;> exact fun _ => h1

end Writer
end Verif
