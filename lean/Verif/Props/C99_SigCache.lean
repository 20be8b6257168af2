import Verif.Proofs.SigCache
import Verif.Props.C52_Signature
/-
C99: the signatures that a client keeps.
-/
namespace Verif
namespace SigCache

/-- C99: the signatures with which a writer or sampler is made are those of all tables of a server the client has had; or there are none, if
some call asked for an answer at once. `C52_tables` says which signatures those are. Nothing else is ever returned, and what `ServerInfo` returns
is the information of one of the servers. -/
theorem C99_true {server : Info} {evs : List Event} {c : Client} (h : (Client.init server).run evs = some c) :
    (∀ t s, (t, Out.signatures (.ok s)) ∈ c.log → (s = .empty ∧ ∃ t, Event.make t true ∈ evs) ∨ ∃ i ∈ servers server evs, i.Tells s) ∧
    ∀ i ∈ infos c.log, i ∈ servers server evs :=
  ⟨((Inv.init server).run h).sigs, ((Inv.init server).run h).infos⟩

/-- C99: signatures are pulled once: after the first success no new writer or sampler asks the server again, nor waits. -/
theorem C99_once {server : Info} {evs : List Event} {c : Client} (h : (Client.init server).run evs = some c) (hh : Heard evs c.log) {t : Nat}
    (ht : c.calls.get? t = none) (atOnce : Bool) :
    ∃ s, c.step (.make t atOnce) = some { c with log := c.log ++ [(t, .signatures (.ok s))] } := by
  have := ((Inv.init server).run h).heard hh
  obtain ⟨⟨id, s⟩, hc⟩ := Option.isSome_iff_exists.mp this
  exact ⟨s, by simp only [Client.step, ht, hc]⟩

/-- C99: a call that asks the server gets, and keeps for the next writer or sampler, the signatures of the present server, if no two
servers have drawn the same number. -/
theorem C99_refresh {server : Info} {evs : List Event} {t u : Nat} {atOnce : Bool} {c : Client} {s : Signatures}
    (h : (Client.init server).run (evs ++ [.answer t, .store t, .make u atOnce]) = some c)
    (hid : ∀ i ∈ servers server evs, ∀ j ∈ servers server evs, i.id = j.id → i = j) (hs : (present server evs).Tells s) :
    ∃ o log, c.log = log ++ [(t, o), (u, .signatures (.ok s))] ∧ (o = .info (.ok (present server evs)) ∨ o = .signatures (.ok s)) := by
  obtain ⟨c0, h0, h1⟩ := run_append h
  have inv : Inv server evs c0 := by simpa using (Inv.init server).run h0
  simp only [Client.run] at h1
  cases ha : c0.step (.answer t) with
  | none => simp [ha] at h1
  | some c1 =>
    simp only [ha] at h1
    simp only [Client.step] at ha
    split at ha
    · rename_i r hcall
      cases ha
      rw [inv.now] at h1
      have hu : update c0.cache (present server evs) = .ok ((present server evs).id, s) := by
        unfold update
        have hs' : flatSignatures (present server evs).tables .empty = .ok s := hs
        split
        · rename_i id s' hc
          split
          · rw [hs']
          · rename_i hne
            obtain ⟨i, g1, g2, g3⟩ := inv.cache id s' hc
            have : i = present server evs := hid i g1 _ (present_mem _ _) (by rw [g2]; exact Classical.not_not.mp hne)
            subst this
            have : s' = s := by
              have := g3.symm.trans hs'
              cases this; rfl
            rw [this, g2]
        · rw [hs']
      simp only [Client.step, AMap.get?_insert_self, hu] at h1
      cases r with
      | true =>
        simp only [if_true, Client.finish, AMap.get?_erase] at h1
        split at h1
        · cases h1
        · rename_i c2 h2
          split at h2
          · cases h2
          · cases h2
            cases h1
            exact ⟨_, c0.log, by simp, .inl rfl⟩
      | false =>
        simp only [Bool.false_eq_true, if_false, Client.finish, AMap.get?_erase] at h1
        split at h1
        · cases h1
        · rename_i c2 h2
          split at h2
          · cases h2
          · cases h2
            cases h1
            exact ⟨_, c0.log, by simp, .inr rfl⟩
    · cases ha

/-- C99, Python: the signatures that `Client.sample` of Python uses are those of the first server that `server_info` has told of. -/
theorem C99_python {server : Info} {evs : List Event} {c : Client} (h : (Client.init server).run evs = some c) :
    c.py = ((infos c.log).find? fun i => !i.tables.isEmpty).elim [] Info.tables :=
  ((Inv.init server).run h).py

end SigCache

namespace SigCacheDemo
open SigCache

/-- Two servers, with tables of the same name and different signatures. -/
def old : Info := ⟨1, [("t", some (.spec ⟨"", ⟨.int32, some []⟩⟩))]⟩
def new : Info := ⟨2, [("t", some (.spec ⟨"", ⟨.double, some []⟩⟩))]⟩

/-- The signature of the table "t" that the last call got. -/
def last (c : Client) : Option (Option (List TensorSpec)) :=
  match c.log.getLast? with
  | some (_, .signatures (.ok s)) => s.get? "t"
  | _ => none

/-- A check on the state after a run. -/
theorem after {evs : List Event} {P : Client → Bool} (h : ((Client.init old).run evs).any P = true) : ∃ c, (Client.init old).run evs = some c ∧ P c = true := by
  rw [Option.any_eq_true] at h; exact h

/-- The hypotheses are met: a writer is made, the server is replaced, `ServerInfo` is called while another thread asks, and the next writer has
the new signature. -/
example : ∃ c, (Client.init old).run ([.make 0 false, .answer 0, .store 0, .replace new, .info 1, .info 2] ++ [.answer 1, .store 1, .make 0 false]) = some c ∧
    last c = some (some [⟨.double, some []⟩]) ∧ c.asked = 3 := by
  obtain ⟨c, h1, h2⟩ := after (evs := [.make 0 false, .answer 0, .store 0, .replace new, .info 1, .info 2] ++ [.answer 1, .store 1, .make 0 false])
    (P := fun c => decide (last c = some (some [⟨.double, some []⟩]) ∧ c.asked = 3)) (by decide +kernel)
  exact ⟨c, h1, by simpa using h2⟩

end SigCacheDemo

namespace SigCache
open SigCacheDemo

/-- C99 is false for a server that is replaced: new writers and samplers go on with the signatures of the old one. -/
theorem C99_stale_is_false : ∃ evs c, (Client.init old).run evs = some c ∧ present old evs = new ∧
    evs = [.make 0 false, .answer 0, .store 0, .replace new, .make 0 false] ∧ last c = some (some [⟨.int32, some []⟩]) ∧
    ∀ s, new.Tells s → s.get? "t" = some (some [⟨.double, some []⟩]) := by
  obtain ⟨c, h1, h2⟩ := after (evs := [.make 0 false, .answer 0, .store 0, .replace new, .make 0 false])
    (P := fun c => decide (last c = some (some [⟨.int32, some []⟩]))) (by decide +kernel)
  refine ⟨_, c, h1, rfl, rfl, by simpa using h2, fun s hs => ?_⟩
  have : flatSignatures new.tables .empty = .ok s := hs
  have hd : (match flatSignatures new.tables .empty with | .ok s => decide (s.get? "t" = some (some [⟨.double, some []⟩])) | _ => false) = true := by decide +kernel
  rw [this] at hd
  simpa using hd

/-- C99 is false even if `ServerInfo` is called afterwards, when another thread still has an old answer: the new signatures are overwritten. -/
theorem C99_race_is_false : ∃ evs c, (Client.init old).run (evs ++ [.info 1, .answer 1, .store 1, .store 0, .make 1 false]) = some c ∧ present old evs = new ∧
    last c = some (some [⟨.int32, some []⟩]) := by
  obtain ⟨c, h1, h2⟩ := after (evs := [.info 0, .answer 0, .replace new] ++ [.info 1, .answer 1, .store 1, .store 0, .make 1 false])
    (P := fun c => decide (last c = some (some [⟨.int32, some []⟩]))) (by decide +kernel)
  exact ⟨_, c, h1, rfl, by simpa using h2⟩

/-- In Python C99 is false though `server_info` has returned the new signature: `Client.sample` unpacks with the old one. -/
theorem C99_python_is_false : ∃ evs c, (Client.init old).run evs = some c ∧ present old evs = new ∧
    (infos c.log).getLast? = some new ∧ pySignature c.py "t" = some (some (.spec ⟨"", ⟨.int32, some []⟩⟩)) := by
  refine ⟨[.info 0, .answer 0, .store 0, .replace new, .info 0, .answer 0, .store 0], _, rfl, rfl, rfl, rfl⟩

end SigCache
end Verif
