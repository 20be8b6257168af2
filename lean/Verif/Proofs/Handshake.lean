import Verif.Spec.Handshake
/-
Invariants of the handshake.
-/
namespace Verif
namespace Handshake

/-- What always holds, whether the stream was cut or not. -/
structure Always (async near : Bool) (cp sp : Nat) (tables : AMap String Nat) (name : String) (s : State) : Prop where
  params : s.async = async ∧ s.near = near ∧ s.clientPid = cp ∧ s.serverPid = sp ∧ s.tables = tables ∧ s.name = name
  early : s.server = .start ∨ s.server = .first → s.finished = [] ∧ s.heap = .none ∧ s.toClient = [] ∧
    (s.client = .write ∧ s.toServer = [] ∨ s.client = .read ∧ s.toServer = [⟨cp, name, false⟩] ∨
      (∃ c, s.client = .done (some c)) ∧ (s.toServer = [] ∨ s.toServer = [⟨cp, name, false⟩]))
  begun : s.server = .first → near = true
  middle : s.server = .second → s.finished = [] ∧ near = true ∧ cp = sp ∧ (∃ t, s.heap = .live t ∧ tables.get? name = some t) ∧ s.client ≠ .write ∧
    (s.toServer = [] ∨ s.toServer = [⟨cp, name, true⟩] ∧ (s.client = .finish ∨ ∃ r, s.client = .done r))
  late : s.server = .done → s.finished.length = 1 ∧ s.heap = (if near = true ∧ cp = sp ∧ (tables.get? name).isSome then s.heap else .none) ∧ ∀ t, s.heap ≠ .live t
  fine : s.client = .done none → s.server = .done ∧ s.cut = false

/-- The states of a call whose stream is not cut. -/
inductive Exact (async near : Bool) (cp sp : Nat) (tables : AMap String Nat) (name : String) : State → Prop
  | start : Exact async near cp sp tables name ⟨async, near, cp, sp, tables, name, .start, .write, [], [], false, .none, none, false, []⟩
  | startSent : Exact async near cp sp tables name ⟨async, near, cp, sp, tables, name, .start, .read, [⟨cp, name, false⟩], [], false, .none, none, false, []⟩
  | first : near = true → Exact async near cp sp tables name ⟨async, near, cp, sp, tables, name, .first, .write, [], [], false, .none, none, false, []⟩
  | firstSent : near = true →
      Exact async near cp sp tables name ⟨async, near, cp, sp, tables, name, .first, .read, [⟨cp, name, false⟩], [], false, .none, none, false, []⟩
  | far (c q) : near = false → c = .write ∨ c = .read ∨ c = .done (some .internal) →
      Exact async near cp sp tables name ⟨async, near, cp, sp, tables, name, .done, c, q, [], false, .none, none, false, [none]⟩
  | other (c r) : near = true → cp ≠ sp → c = .read ∧ r = [false] ∨ c = .done (some .failedPrecondition) ∧ r = [] →
      Exact async near cp sp tables name ⟨async, near, cp, sp, tables, name, .done, c, [], r, false, .none, none, false, [none]⟩
  | unknown (c) : near = true → cp = sp → tables.get? name = none → c = .read ∨ c = .done (some .notFound) →
      Exact async near cp sp tables name ⟨async, near, cp, sp, tables, name, .done, c, [], [], false, .none, none, false, [some .notFound]⟩
  | second (t c q r o) : near = true → cp = sp → tables.get? name = some t →
      c = .read ∧ q = [] ∧ r = [true] ∧ o = none ∨ c = .copy ∧ q = [] ∧ r = [] ∧ o = none ∨ c = .confirm ∧ q = [] ∧ r = [] ∧ o = some t ∨
        c = .finish ∧ q = [⟨cp, name, true⟩] ∧ r = [] ∧ o = some t →
      Exact async near cp sp tables name ⟨async, near, cp, sp, tables, name, .second, c, q, r, false, .live t, o, false, []⟩
  | done (t c) : near = true → cp = sp → tables.get? name = some t → c = .finish ∨ c = .done none →
      Exact async near cp sp tables name ⟨async, near, cp, sp, tables, name, .done, c, [], [], false, .freed, some t, false, [none]⟩

variable {async near : Bool} {cp sp : Nat} {tables : AMap String Nat} {name : String}

theorem exact_step {s s' : State} {e : Event} (h : Exact async near cp sp tables name s) (he : e ≠ .cut) (hs : step s e = some s') :
    Exact async near cp sp tables name s' := by
  cases h with
  | start =>
    cases e <;> simp [step, endCall] at hs he
    · subst hs
      cases near
      · exact .far _ _ rfl (Or.inl rfl)
      · exact .first rfl
    · subst hs; exact .startSent
  | startSent =>
    cases e <;> simp [step, endCall] at hs he
    · subst hs
      cases near
      · exact .far _ _ rfl (Or.inr (Or.inl rfl))
      · exact .firstSent rfl
  | first hn =>
    cases e <;> simp [step, endCall] at hs he
    subst hs; exact .firstSent hn
  | firstSent hn =>
    cases e <;> simp [step, endCall] at hs he
    subst hs
    unfold request
    dsimp only
    split
    · rename_i hp
      simp [refuse, endCall]
      exact .other _ _ hn hp (Or.inl ⟨rfl, rfl⟩)
    · rename_i hp
      have hp : cp = sp := Classical.not_not.1 hp
      split
      · rename_i ht
        simp [endCall]
        exact .unknown _ hn hp ht (Or.inl rfl)
      · rename_i t ht
        simp
        exact .second t _ _ _ _ hn hp ht (Or.inl ⟨rfl, rfl, rfl, rfl⟩)
  | far c q hn hc =>
    rcases hc with rfl | rfl | rfl <;> cases e <;> simp [step, endCall, failure, status] at hs he <;> subst hs
    · exact .far _ _ hn (Or.inr (Or.inl rfl))
    · exact .far _ _ hn (Or.inr (Or.inr rfl))
    · exact .far _ _ hn (Or.inr (Or.inr rfl))
  | other c r hn hp hc =>
    rcases hc with ⟨rfl, rfl⟩ | ⟨rfl, rfl⟩ <;> cases e <;> simp [step, endCall, failure, status] at hs he
    subst hs
    exact .other _ _ hn hp (Or.inr ⟨rfl, rfl⟩)
  | unknown c hn hp ht hc =>
    rcases hc with rfl | rfl <;> cases e <;> simp [step, endCall, failure, status] at hs he
    subst hs
    exact .unknown _ hn hp ht (Or.inr rfl)
  | second t c q r o hn hp ht hc =>
    subst hp
    rcases hc with ⟨rfl, rfl, rfl, rfl⟩ | ⟨rfl, rfl, rfl, rfl⟩ | ⟨rfl, rfl, rfl, rfl⟩ | ⟨rfl, rfl, rfl, rfl⟩ <;> cases e <;>
      simp [step, endCall, failure, status, confirmation] at hs he <;> subst hs
    · exact .second t _ _ _ _ hn rfl ht (Or.inr (Or.inl ⟨rfl, rfl, rfl, rfl⟩))
    · exact .second t _ _ _ _ hn rfl ht (Or.inr (Or.inr (Or.inl ⟨rfl, rfl, rfl, rfl⟩)))
    · exact .second t _ _ _ _ hn rfl ht (Or.inr (Or.inr (Or.inr ⟨rfl, rfl, rfl, rfl⟩)))
    · exact .done t _ hn rfl ht (Or.inl rfl)
  | done t c hn hp ht hc =>
    rcases hc with rfl | rfl <;> cases e <;> simp [step, endCall, failure, status] at hs he
    subst hs
    exact .done t _ hn hp ht (Or.inr rfl)

theorem exact_run : ∀ {es : List Event} {s s' : State}, Exact async near cp sp tables name s → .cut ∉ es → run s es = some s' →
    Exact async near cp sp tables name s'
  | [], s, s', h, _, hs => by cases hs; exact h
  | e :: es, s, s', h, hc, hs => by
    unfold run at hs
    split at hs
    · cases hs
    · rename_i s1 h1
      exact exact_run (exact_step h (fun he => hc (by simp [he])) h1) (fun he => hc (List.mem_cons_of_mem _ he)) hs

theorem always_init : Always async near cp sp tables name (init async near cp sp tables name) :=
  ⟨⟨rfl, rfl, rfl, rfl, rfl, rfl⟩, fun _ => ⟨rfl, rfl, rfl, Or.inl ⟨rfl, rfl⟩⟩, (by intro h; cases h), (by intro h; cases h), (by intro h; cases h), (by intro h; cases h)⟩

theorem failure_err (s : State) : ∃ c, failure s = .done (some c) := by
  unfold failure
  split
  · exact ⟨_, rfl⟩
  · exact ⟨_, rfl⟩

theorem always_step {s s' : State} {e : Event} (h : Always async near cp sp tables name s) (hs : step s e = some s') :
    Always async near cp sp tables name s' := by
  obtain ⟨a, n, c, p, tb, nm, sv, cl, ts, tc, ct, hp, o, d, f⟩ := s
  obtain ⟨⟨h1, h2, h3, h4, h5, h6⟩, hearly, hbegun, hmid, hlate, hfine⟩ := h
  dsimp only at h1 h2 h3 h4 h5 h6 hearly hbegun hmid hlate hfine
  subst h1 h2 h3 h4 h5 h6
  cases e with
  | serverStart =>
    cases sv <;> simp [step] at hs
    obtain ⟨rfl, rfl, rfl, hcl⟩ := hearly (Or.inl rfl)
    subst hs
    cases n
    · simp only [endCall]
      constructor <;> simp_all
    · constructor <;> simp_all
  | serverRead =>
    cases sv <;> cases ts <;> simp [step] at hs
    · rename_i r rest
      obtain ⟨rfl, rfl, rfl, hcl⟩ := hearly (Or.inr rfl)
      have hn := hbegun rfl
      subst hs
      unfold request
      dsimp only
      split
      · unfold refuse
        dsimp only [endCall]
        split <;> constructor <;> simp_all
      · split
        · constructor <;> simp_all [endCall]
        · split <;> constructor <;> simp_all [endCall]
          all_goals grind
    · rename_i r rest
      obtain ⟨rfl, hn, hcp, ⟨t, rfl, ht⟩, hcl, hq⟩ := hmid rfl
      subst hs
      unfold confirmation
      dsimp only
      simp at hq
      obtain ⟨⟨rfl, rfl⟩, hq⟩ := hq
      constructor <;> simp_all [endCall]
  | serverReadFails =>
    simp [step] at hs
    obtain ⟨⟨hsv, hct⟩, rfl⟩ := hs
    rcases hsv with rfl | rfl
    · obtain ⟨rfl, rfl, rfl, hcl⟩ := hearly (Or.inr rfl)
      constructor <;> simp_all [endCall]
    · obtain ⟨rfl, hn, hcp, ⟨t, rfl, ht⟩, hcl, hq⟩ := hmid rfl
      constructor <;> simp_all [endCall]
  | clientWrite =>
    simp [step] at hs
    obtain ⟨rfl, rfl⟩ := hs
    constructor <;> simp_all
  | clientWriteFails =>
    simp [step] at hs
    obtain ⟨⟨rfl, hx⟩, rfl⟩ := hs
    obtain ⟨c', hc'⟩ := failure_err ⟨a, n, c, p, tb, nm, sv, .write, ts, tc, ct, hp, o, d, f⟩
    rw [hc']
    constructor <;> simp_all
  | clientRead =>
    cases cl <;> cases tc <;> simp [step] at hs
    rename_i x rest
    subst hs
    cases x <;> constructor <;> (try simp_all) <;> try grind
  | clientReadFails =>
    simp [step] at hs
    obtain ⟨⟨rfl, hx⟩, rfl⟩ := hs
    obtain ⟨c', hc'⟩ := failure_err ⟨a, n, c, p, tb, nm, sv, .read, ts, tc, ct, hp, o, d, f⟩
    rw [hc']
    constructor <;> (try simp_all) <;> try grind
  | clientCopy =>
    simp [step] at hs
    obtain ⟨rfl, rfl⟩ := hs
    constructor <;> (try simp_all) <;> try grind
  | clientConfirm =>
    simp [step] at hs
    obtain ⟨rfl, rfl⟩ := hs
    constructor <;> (try simp_all) <;> try grind
  | clientFinish =>
    simp [step] at hs
    obtain ⟨⟨rfl, hx⟩, rfl⟩ := hs
    unfold status
    cases ct <;> constructor <;> (try simp_all) <;> try grind
  | cut =>
    simp [step] at hs
    obtain ⟨⟨rfl, hx⟩, rfl⟩ := hs
    constructor <;> (try simp_all) <;> try grind

theorem always_run : ∀ {es : List Event} {s s' : State}, Always async near cp sp tables name s → run s es = some s' →
    Always async near cp sp tables name s'
  | [], s, s', h, hs => by cases hs; exact h
  | e :: es, s, s', h, hs => by
    unfold run at hs
    split at hs
    · cases hs
    · rename_i s1 h1
      exact always_run (always_step h h1) hs

theorem run_append : ∀ (es fs : List Event) (s : State), run s (es ++ fs) = (run s es).bind fun s' => run s' fs
  | [], fs, s => rfl
  | e :: es, fs, s => by
    simp only [List.cons_append, run]
    cases step s e with
    | none => rfl
    | some s' => exact run_append es fs s'

/-- `cut` stays. -/
theorem cut_step {s s' : State} {e : Event} (hs : step s e = some s') (hc : s.cut = true) : s'.cut = true := by
  cases e <;> simp only [step] at hs <;> (repeat' split at hs) <;> (try cases hs) <;>
    (try simp_all [endCall, request, confirmation, refuse]) <;> (repeat' split) <;> simp_all

/-- How much is left to do. -/
def left (s : State) : Nat :=
  (match s.server with | .start => 3 | .first => 2 | .second => 1 | .done => 0) +
  (match s.client with | .write => 5 | .read => 4 | .copy => 3 | .confirm => 2 | .finish => 1 | .done _ => 0) + (if s.cut then 0 else 1)

theorem left_step {s s' : State} {e : Event} (hs : step s e = some s') : left s' < left s := by
  obtain ⟨a, n, c, p, tb, nm, sv, cl, ts, tc, ct, hp, o, d, f⟩ := s
  have hf := failure_err ⟨a, n, c, p, tb, nm, sv, cl, ts, tc, ct, hp, o, d, f⟩
  cases e with
  | serverStart =>
    cases sv <;> simp [step] at hs
    subst hs
    cases n <;> simp [left, endCall] <;> omega
  | serverRead =>
    cases sv <;> cases ts <;> simp [step] at hs <;> subst hs
    · simp only [request, refuse, endCall]
      (repeat' split) <;> simp_all [left] <;> omega
    · simp only [confirmation, refuse, endCall]
      (repeat' split) <;> simp_all [left] <;> omega
  | serverReadFails =>
    simp [step] at hs
    obtain ⟨⟨hsv, hct⟩, rfl⟩ := hs
    subst hct
    rcases hsv with rfl | rfl <;> simp [left, endCall] <;> omega
  | clientWriteFails =>
    simp [step] at hs
    obtain ⟨⟨rfl, hx⟩, rfl⟩ := hs
    obtain ⟨c', hc'⟩ := hf
    rw [hc']
    simp [left] <;> omega
  | clientReadFails =>
    simp [step] at hs
    obtain ⟨⟨rfl, hx⟩, rfl⟩ := hs
    obtain ⟨c', hc'⟩ := hf
    rw [hc']
    simp [left] <;> omega
  | clientRead =>
    cases cl <;> cases tc <;> simp [step] at hs
    rename_i x rest
    subst hs
    cases x <;> simp [left] <;> omega
  | clientWrite | clientCopy | clientConfirm | clientFinish | cut =>
    simp [step] at hs
    obtain ⟨hx, rfl⟩ := hs
    simp_all [left]
    try omega

theorem left_run : ∀ {es : List Event} {s s' : State}, run s es = some s' → es.length + left s' ≤ left s
  | [], s, s', hs => by cases hs; simp
  | e :: es, s, s', hs => by
    unfold run at hs
    split at hs
    · cases hs
    · rename_i s1 h1
      have := left_run hs
      have := left_step h1
      simp only [List.length_cons]
      omega

/-- A state of a call whose stream is not cut has a next step unless both sides are done. -/
theorem exact_progress {s : State} (h : Exact async near cp sp tables name s) : s.Over ∨ ∃ e s', e ≠ .cut ∧ step s e = some s' := by
  cases h with
  | start => exact Or.inr ⟨.clientWrite, _, (by simp), rfl⟩
  | startSent => exact Or.inr ⟨.serverStart, _, (by simp), rfl⟩
  | first hn => exact Or.inr ⟨.clientWrite, _, (by simp), rfl⟩
  | firstSent hn => exact Or.inr ⟨.serverRead, _, (by simp), rfl⟩
  | far c q hn hc =>
    rcases hc with rfl | rfl | rfl
    · exact Or.inr ⟨.clientWrite, _, (by simp), rfl⟩
    · exact Or.inr ⟨.clientReadFails, _, (by simp), by simp [step]; rfl⟩
    · exact Or.inl ⟨rfl, _, rfl⟩
  | other c r hn hp hc =>
    rcases hc with ⟨rfl, rfl⟩ | ⟨rfl, rfl⟩
    · exact Or.inr ⟨.clientRead, _, (by simp), rfl⟩
    · exact Or.inl ⟨rfl, _, rfl⟩
  | unknown c hn hp ht hc =>
    rcases hc with rfl | rfl
    · exact Or.inr ⟨.clientReadFails, _, (by simp), by simp [step]; rfl⟩
    · exact Or.inl ⟨rfl, _, rfl⟩
  | second t c q r o hn hp ht hc =>
    rcases hc with ⟨rfl, rfl, rfl, rfl⟩ | ⟨rfl, rfl, rfl, rfl⟩ | ⟨rfl, rfl, rfl, rfl⟩ | ⟨rfl, rfl, rfl, rfl⟩
    · exact Or.inr ⟨.clientRead, _, (by simp), rfl⟩
    · exact Or.inr ⟨.clientCopy, _, (by simp), rfl⟩
    · exact Or.inr ⟨.clientConfirm, _, (by simp), rfl⟩
    · exact Or.inr ⟨.serverRead, _, (by simp), rfl⟩
  | done t c hn hp ht hc =>
    rcases hc with rfl | rfl
    · exact Or.inr ⟨.clientFinish, _, (by simp), by simp [step]; rfl⟩
    · exact Or.inl ⟨rfl, _, rfl⟩

/-- And so has one of a call whose stream is cut. -/
theorem cut_progress {s : State} (h : s.cut = true) : s.Over ∨ ∃ e s', step s e = some s' := by
  obtain ⟨a, n, c, p, tb, nm, sv, cl, ts, tc, ct, hp, o, d, f⟩ := s
  dsimp only at h
  subst h
  cases sv with
  | start => exact Or.inr ⟨.serverStart, _, rfl⟩
  | first => exact Or.inr ⟨.serverReadFails, _, rfl⟩
  | second => exact Or.inr ⟨.serverReadFails, _, rfl⟩
  | done =>
    cases cl with
    | write => exact Or.inr ⟨.clientWrite, _, rfl⟩
    | read => exact Or.inr ⟨.clientReadFails, _, rfl⟩
    | copy => exact Or.inr ⟨.clientCopy, _, rfl⟩
    | confirm => exact Or.inr ⟨.clientConfirm, _, rfl⟩
    | finish => exact Or.inr ⟨.clientFinish, _, rfl⟩
    | done r => exact Or.inl ⟨rfl, _, rfl⟩

/-- A state that is not cut was reached without a cut. -/
theorem run_uncut : ∀ {es : List Event} {s s' : State}, run s es = some s' → s'.cut = false → .cut ∉ es
  | [], s, s', _, _ => by simp
  | e :: es, s, s', hs, hc => by
    unfold run at hs
    split at hs
    · cases hs
    · rename_i s1 h1
      have ih := run_uncut hs hc
      intro hm
      rcases List.mem_cons.1 hm with he | he
      · subst he
        have h1c : s1.cut = true := by
          simp [step] at h1
          rw [← h1.2]
        exact absurd hc (by rw [run_cut hs h1c]; simp)
      · exact ih he
where
  run_cut : ∀ {es : List Event} {s s' : State}, run s es = some s' → s.cut = true → s'.cut = true
  | [], s, s', hs, hc => by cases hs; exact hc
  | e :: es, s, s', hs, hc => by
    unfold run at hs
    split at hs
    · cases hs
    · rename_i s1 h1
      exact run_cut hs (cut_step h1 hc)

end Handshake
end Verif
