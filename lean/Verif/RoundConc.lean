import Verif.RunnerProps
/-
Model of the threads, channels and processes of one round of solvers:
/repo/crates/cryptovampire/src/runner/runners.rs:169-303 (Handler, autorun_many, killall,
kill_shared_child), runner_helper.rs:19-64 (exec_cmd).

Each solver has a thread, which holds a handler (two senders for children) and a sender of results.
A thread either fails before spawning, or spawns a process and hands it over to the killer channel
(giving up its handler), reads its output until the process ends, and sends one result. The main thread receives
results until one is decisive or all result senders are gone; then it drains the killable and the
unkillable channel, killing what it gets, until no handler is left, and joins the threads.
Simplifications: killing a process always succeeds (its io error is the `kill` argument of
`receive`), `spawn` itself failing is merged with failing before spawning, sleeping is erased.
-/
set_option linter.unusedSimpArgs false
namespace CV.Conc

/-- Phases of a solver thread (runners.rs:215-217, runner_helper.rs:19-64): holding its handler; process
spawned and registered (alive or ended); result sent. -/
inductive TPh
  | start | run (alive : Bool) | fin
  deriving DecidableEq

/-- Phases of the main thread (runners.rs:225-258, 272-295): receiving results with the texts gathered so
far; draining the two channels; joining; returned. -/
inductive MPh
  | recv (acc : List (List Char))
  | killK (v : Except RErr (Option (List (List Char))))
  | killU (v : Except RErr (Option (List (List Char))))
  | join (v : Except RErr (Option (List (List Char))))
  | ret (v : Except RErr (Option (List (List Char))))

/-- State of a round. `th i` for `i < n` are the threads. `fq`, `kq`, `uq` are the channels `finished`, `killable`,
`unkillable`. `sent` is a ghost log: all results ever sent, in order, with their thread. -/
structure St where
  th : Nat → TPh
  fq : List Delivery
  kq : List Nat
  uq : List Nat
  main : MPh
  sent : List (Nat × Delivery)

/-- Static data: number of solvers, their kind and whether their process goes to the killable channel
(`Runner::kind`). -/
structure Cfg where
  n : Nat
  kind : Nat → RKind
  killable : Nat → Bool

def upd (f : Nat → TPh) (i : Nat) (x : TPh) : Nat → TPh := fun j => if j = i then x else f j

/-- The initial state: all threads spawned (runners.rs:200-227). -/
def init : St := { th := fun _ => .start, fq := [], kq := [], uq := [], main := .recv [], sent := [] }

/-- Reaction of the main thread to one received result (runners.rs:229-256). -/
def react (acc : List (List Char)) : Delivery → MPh
  | (_, .ok .sat) => .killK (.error .disprove)
  | (_, .ok .unsat) => .killK (.ok none)
  | (.discoverer, .ok (.timeout t)) => .recv (acc ++ [t])
  | (_, .error e) => .killK (.error e)
  | _ => .recv acc

/-- A process dies when killed (runners.rs:297-303). -/
def kill (f : Nat → TPh) (i : Nat) : Nat → TPh :=
  match f i with
  | .run true => upd f i (.run false)
  | _ => f

/-- Who moves. `env` is a solver process ending by itself, everything else is the tool. -/
inductive Actor | env | tool
  deriving DecidableEq

/-- The transitions. -/
inductive Step (c : Cfg) : Actor → St → St → Prop
  /-- a thread fails before its process exists; its handler is dropped (runner.rs:run_to_tmp). -/
  | fail (s : St) (i : Nat) (e : RErr) : i < c.n → s.th i = .start →
      Step c .tool s { s with th := upd s.th i .fin, fq := s.fq ++ [(c.kind i, .error e)],
                              sent := s.sent ++ [(i, c.kind i, .error e)] }
  /-- a thread spawns its process and registers it (runners.rs:172-190). -/
  | spawnK (s : St) (i : Nat) : i < c.n → s.th i = .start → c.killable i = true →
      Step c .tool s { s with th := upd s.th i (.run true), kq := s.kq ++ [i] }
  | spawnU (s : St) (i : Nat) : i < c.n → s.th i = .start → c.killable i = false →
      Step c .tool s { s with th := upd s.th i (.run true), uq := s.uq ++ [i] }
  /-- a solver process ends by itself. -/
  | exit (s : St) (i : Nat) : i < c.n → s.th i = .run true →
      Step c .env s { s with th := upd s.th i (.run false) }
  /-- a thread whose process has ended sends its result (runners.rs:216). -/
  | send (s : St) (i : Nat) (r : Except RErr Out) : i < c.n → s.th i = .run false →
      Step c .tool s { s with th := upd s.th i .fin, fq := s.fq ++ [(c.kind i, r)],
                              sent := s.sent ++ [(i, c.kind i, r)] }
  /-- the main thread receives a result. -/
  | recv (s : St) (acc d rest) : s.main = .recv acc → s.fq = d :: rest →
      Step c .tool s { s with fq := rest, main := react acc d }
  /-- all result senders are gone (runners.rs:257). -/
  | closed (s : St) (acc) : s.main = .recv acc → s.fq = [] → (∀ i, i < c.n → s.th i = .fin) →
      Step c .tool s { s with main := .killK (.ok (some acc)) }
  /-- `killall` takes a child from the first channel (runners.rs:278-279). -/
  | popK (s : St) (v i rest) : s.main = .killK v → s.kq = i :: rest →
      Step c .tool s { s with kq := rest, th := kill s.th i }
  /-- no handler left: the first channel is closed. -/
  | closedK (s : St) (v) : s.main = .killK v → s.kq = [] → (∀ i, i < c.n → s.th i ≠ .start) →
      Step c .tool s { s with main := .killU v }
  | popU (s : St) (v i rest) : s.main = .killU v → s.uq = i :: rest →
      Step c .tool s { s with uq := rest, th := kill s.th i }
  | closedU (s : St) (v) : s.main = .killU v → s.uq = [] → (∀ i, i < c.n → s.th i ≠ .start) →
      Step c .tool s { s with main := .join v }
  /-- all threads joined (runners.rs:284-294). -/
  | joined (s : St) (v) : s.main = .join v → (∀ i, i < c.n → s.th i = .fin) →
      Step c .tool s { s with main := .ret v }

/-- Reachable states. -/
inductive Reach (c : Cfg) : St → Prop
  | init : Reach c init
  | step {a s s'} : Reach c s → Step c a s s' → Reach c s'

/-! ### Termination -/

/-- Work left in one thread. -/
def tw : TPh → Nat
  | .start => 5 | .run true => 3 | .run false => 2 | .fin => 0

/-- Work left in the main thread. -/
def mw : MPh → Nat
  | .recv _ => 4 | .killK _ => 3 | .killU _ => 2 | .join _ => 1 | .ret _ => 0

def tsum (n : Nat) (f : Nat → TPh) : Nat := ((List.range n).map (fun i => tw (f i))).sum

/-- Work left. -/
def work (c : Cfg) (s : St) : Nat :=
  tsum c.n s.th + s.fq.length + s.kq.length + s.uq.length + mw s.main

theorem tsum_upd (n : Nat) (f : Nat → TPh) (i : Nat) (x : TPh) (hi : i < n) :
    tsum n (upd f i x) + tw (f i) = tsum n f + tw x := by
  induction n with
  | zero => omega
  | succ n ih =>
    simp only [tsum, List.range_succ, List.map_append, List.sum_append, List.map_cons, List.map_nil,
      List.sum_cons, List.sum_nil] at ih ⊢
    by_cases h : i = n
    · subst h
      have hsame : (List.range i).map (fun j => tw (upd f i x j)) = (List.range i).map (fun j => tw (f j)) := by
        apply List.map_congr_left
        intro j hj
        have : j ≠ i := by have := List.mem_range.1 hj; omega
        simp [upd, this]
      rw [hsame]; simp only [upd, if_true]; omega
    · have := ih (by omega)
      have h2 : upd f i x n = f n := by simp [upd, Ne.symm h]
      rw [h2]; omega

theorem tsum_kill (n : Nat) (f : Nat → TPh) (i : Nat) : tsum n (kill f i) ≤ tsum n f := by
  unfold kill
  split
  · rename_i h
    by_cases hi : i < n
    · have := tsum_upd n f i (.run false) hi
      rw [h] at this; simp only [tw] at this; omega
    · have : tsum n (upd f i (.run false)) = tsum n f := by
        simp only [tsum]
        congr 1
        apply List.map_congr_left
        intro j hj
        have : j ≠ i := by have := List.mem_range.1 hj; omega
        simp [upd, this]
      omega
  · exact Nat.le_refl _

theorem mw_react (acc : List (List Char)) (d : Delivery) : mw (react acc d) ≤ 4 := by
  unfold react; split <;> simp [mw]

/-- C50 (termination): every transition strictly decreases the work left, so every execution of a round
is finite, with at most `5·n + 4` transitions. -/
theorem C50_terminates (c : Cfg) {a : Actor} {s s' : St} (h : Step c a s s') : work c s' < work c s := by
  cases h with
  | fail _ i e hi hs => have := tsum_upd c.n s.th i .fin hi; rw [hs] at this; simp only [tw] at this; simp [work]; omega
  | spawnK _ i hi hs _ => have := tsum_upd c.n s.th i (.run true) hi; rw [hs] at this; simp only [tw] at this; simp [work]; omega
  | spawnU _ i hi hs _ => have := tsum_upd c.n s.th i (.run true) hi; rw [hs] at this; simp only [tw] at this; simp [work]; omega
  | exit _ i hi hs => have := tsum_upd c.n s.th i (.run false) hi; rw [hs] at this; simp only [tw] at this; simp [work]; omega
  | send _ i r hi hs => have := tsum_upd c.n s.th i .fin hi; rw [hs] at this; simp only [tw] at this; simp [work]; omega
  | recv _ acc d rest hm hq => have := mw_react acc d; have h4 : mw (MPh.recv acc) = 4 := rfl; simp only [work, hm, hq, List.length_cons, h4]; omega
  | closed _ acc hm hq _ => simp [work, hm, mw]
  | popK _ v i rest hm hq => have := tsum_kill c.n s.th i; simp [work, hq]; omega
  | closedK _ v hm hq _ => simp [work, hm, mw]
  | popU _ v i rest hm hq => have := tsum_kill c.n s.th i; simp [work, hq]; omega
  | closedU _ v hm hq _ => simp [work, hm, mw]
  | joined _ v hm _ => simp [work, hm, mw]

theorem work_init (c : Cfg) : work c init = 5 * c.n + 4 := by
  have : ∀ n, tsum n (fun _ => TPh.start) = 5 * n := by
    intro n
    induction n with
    | zero => rfl
    | succ n ih => simp only [tsum, List.range_succ, List.map_append, List.sum_append, List.map_cons, List.map_nil,
      List.sum_cons, List.sum_nil, tw] at ih ⊢; omega
  simp [work, init, mw, this]

/-- A chain of transitions of a given length. -/
inductive Exec (c : Cfg) : Nat → St → St → Prop
  | refl (s) : Exec c 0 s s
  | step {n a s s' s''} : Step c a s s' → Exec c n s' s'' → Exec c (n + 1) s s''

/-- C50 (bound on the length of an execution). -/
theorem C50_bound (c : Cfg) (n : Nat) (s : St) (h : Exec c n init s) : n ≤ 5 * c.n + 4 := by
  have : ∀ n s s', Exec c n s s' → n + work c s' ≤ work c s := by
    intro n s s' h
    induction h with
    | refl => omega
    | step h1 _ ih => have := C50_terminates c h1; omega
  have := this n init s h
  rw [work_init] at this; omega

/-! ### Invariants -/

/-- After the first channel is closed. -/
def PastK : MPh → Prop
  | .killU _ | .join _ | .ret _ => True
  | _ => False
def PastU : MPh → Prop
  | .join _ | .ret _ => True
  | _ => False

/-- What the main thread's phase says about the results `got` received so far, the results `fq` still in
the channel and the threads. -/
def Reading (c : Cfg) (th : Nat → TPh) (fq got : List Delivery) : MPh → Prop
  | .recv acc => (∀ x ∈ got, ¬ Decisive x) ∧ acc = timeouts got
  | .killK v | .killU v | .join v | .ret v => v = receive (.ok ()) [] got ∧
      ((∃ r, FirstDecisive got r) ∨ (fq = [] ∧ ∀ i, i < c.n → th i = .fin))

structure Inv (c : Cfg) (s : St) : Prop where
  aliveK : ∀ i, i < c.n → s.th i = .run true → c.killable i = true → i ∈ s.kq
  aliveU : ∀ i, i < c.n → s.th i = .run true → c.killable i = false → i ∈ s.uq
  pastK : PastK s.main → s.kq = [] ∧ ∀ i, i < c.n → s.th i ≠ .start
  pastU : PastU s.main → s.uq = []
  returned : ∀ v, s.main = .ret v → ∀ i, i < c.n → s.th i = .fin
  logged : ∀ i, i < c.n → (s.th i = .fin ↔ i ∈ s.sent.map Prod.fst)
  logRange : ∀ x ∈ s.sent, x.1 < c.n ∧ x.2.1 = c.kind x.1
  logOnce : (s.sent.map Prod.fst).Nodup
  /-- what was received so far, and its reading. -/
  got : ∃ got, s.sent.map Prod.snd = got ++ s.fq ∧ Reading c s.th s.fq got s.main

theorem upd_self (f : Nat → TPh) (i : Nat) (x : TPh) : upd f i x i = x := by simp [upd]
theorem upd_ne (f : Nat → TPh) {i j : Nat} (x : TPh) (h : j ≠ i) : upd f i x j = f j := by simp [upd, h]

theorem kill_cases (f : Nat → TPh) (i j : Nat) :
    (kill f i j = f j ∧ ¬ (j = i ∧ f j = .run true)) ∨
    (j = i ∧ f j = .run true ∧ kill f i j = .run false) := by
  by_cases h : f i = .run true
  · have hk : kill f i = upd f i (.run false) := by simp [kill, h]
    rw [hk]
    by_cases hj : j = i
    · subst hj; right; exact ⟨rfl, h, upd_self _ _ _⟩
    · left; exact ⟨upd_ne _ _ hj, fun hh => hj hh.1⟩
  · have hk : kill f i = f := by unfold kill; split <;> simp_all
    rw [hk]
    left; refine ⟨rfl, ?_⟩
    rintro ⟨rfl, hh⟩; exact h hh

theorem kill_fin (f : Nat → TPh) (i j : Nat) : kill f i j = .fin ↔ f j = .fin := by
  rcases kill_cases f i j with ⟨h, _⟩ | ⟨_, h1, h2⟩
  · rw [h]
  · rw [h1, h2]; simp
theorem kill_start (f : Nat → TPh) (i j : Nat) : kill f i j = .start ↔ f j = .start := by
  rcases kill_cases f i j with ⟨h, _⟩ | ⟨_, h1, h2⟩
  · rw [h]
  · rw [h1, h2]; simp
theorem kill_run (f : Nat → TPh) (i j : Nat) (h : kill f i j = .run true) : f j = .run true ∧ j ≠ i := by
  rcases kill_cases f i j with ⟨h1, h2⟩ | ⟨_, h1, h2⟩
  · rw [h1] at h; exact ⟨h, fun hj => h2 ⟨hj, h⟩⟩
  · rw [h2] at h; simp at h

theorem inv_init (c : Cfg) : Inv c init := by
  constructor <;> simp [init, PastK, PastU, Reading, timeouts]

/-- A thread finishing with a result. -/
theorem inv_send (c : Cfg) (s : St) (hI : Inv c s) (i : Nat) (r : Except RErr Out) (hi : i < c.n)
    (hne : s.th i ≠ .fin) :
    Inv c { s with th := upd s.th i .fin, fq := s.fq ++ [(c.kind i, r)],
                   sent := s.sent ++ [(i, c.kind i, r)] } := by
  have hnot : i ∉ s.sent.map Prod.fst := fun h => hne ((hI.logged i hi).2 h)
  constructor
  · intro j hj h hk
    simp only at h ⊢
    by_cases hji : j = i
    · subst hji; rw [upd_self] at h; simp at h
    · rw [upd_ne _ _ hji] at h; exact hI.aliveK j hj h hk
  · intro j hj h hk
    simp only at h ⊢
    by_cases hji : j = i
    · subst hji; rw [upd_self] at h; simp at h
    · rw [upd_ne _ _ hji] at h; exact hI.aliveU j hj h hk
  · intro h
    obtain ⟨h1, h2⟩ := hI.pastK h
    refine ⟨h1, fun j hj => ?_⟩
    simp only
    by_cases hji : j = i
    · subst hji; rw [upd_self]; simp
    · rw [upd_ne _ _ hji]; exact h2 j hj
  · exact hI.pastU
  · intro v hv j hj
    simp only
    by_cases hji : j = i
    · subst hji; exact upd_self _ _ _
    · rw [upd_ne _ _ hji]; exact hI.returned v hv j hj
  · intro j hj
    simp only [List.map_append, List.map_cons, List.map_nil, List.mem_append, List.mem_singleton]
    by_cases hji : j = i
    · subst hji; simp [upd_self]
    · rw [upd_ne _ _ hji]; simp [hji, hI.logged j hj]
  · intro x hx
    simp only [List.mem_append, List.mem_singleton] at hx
    rcases hx with hx | rfl
    · exact hI.logRange x hx
    · exact ⟨hi, rfl⟩
  · simp only [List.map_append, List.map_cons, List.map_nil]
    rw [List.nodup_append]
    refine ⟨hI.logOnce, by simp, ?_⟩
    intro a ha b hb; simp at hb; subst hb
    rintro rfl; exact hnot ha
  · obtain ⟨got, h1, h2⟩ := hI.got
    refine ⟨got, by simp [h1], ?_⟩
    revert h2
    simp only
    cases s.main with
    | recv acc => exact id
    | killK v | killU v | join v | ret v =>
      rintro ⟨h3, h4 | ⟨_, h5⟩⟩
      · exact ⟨h3, Or.inl h4⟩
      · exact absurd (h5 i hi) hne

/-- A thread moving between unfinished phases. -/
theorem inv_move (c : Cfg) (s : St) (hI : Inv c s) (i : Nat) (x : TPh) (hi : i < c.n)
    (hx : x ≠ .fin) (hxs : x ≠ .start) (hne : s.th i ≠ .fin) (kq uq : List Nat)
    (hk : kq = s.kq ∨ (kq = s.kq ++ [i] ∧ s.th i = .start))
    (hu : uq = s.uq ∨ (uq = s.uq ++ [i] ∧ s.th i = .start))
    (hreg : x = .run true → (c.killable i = true → i ∈ kq) ∧ (c.killable i = false → i ∈ uq)) :
    Inv c { s with th := upd s.th i x, kq := kq, uq := uq } := by
  have hks : ∀ j, j ∈ s.kq → j ∈ kq := by
    intro j hj; rcases hk with rfl | ⟨rfl, _⟩
    · exact hj
    · simp [hj]
  have hus : ∀ j, j ∈ s.uq → j ∈ uq := by
    intro j hj; rcases hu with rfl | ⟨rfl, _⟩
    · exact hj
    · simp [hj]
  constructor
  · intro j hj h hkj
    simp only at h ⊢
    by_cases hji : j = i
    · subst hji; rw [upd_self] at h; exact (hreg h).1 hkj
    · rw [upd_ne _ _ hji] at h; exact hks j (hI.aliveK j hj h hkj)
  · intro j hj h hkj
    simp only at h ⊢
    by_cases hji : j = i
    · subst hji; rw [upd_self] at h; exact (hreg h).2 hkj
    · rw [upd_ne _ _ hji] at h; exact hus j (hI.aliveU j hj h hkj)
  · intro h
    obtain ⟨h1, h2⟩ := hI.pastK h
    refine ⟨?_, fun j hj => ?_⟩
    · rcases hk with rfl | ⟨_, hs⟩
      · exact h1
      · exact absurd hs (h2 i hi)
    · simp only
      by_cases hji : j = i
      · subst hji; rw [upd_self]; exact hxs
      · rw [upd_ne _ _ hji]; exact h2 j hj
  · intro h
    have hp : PastK s.main := by
      revert h; show PastU s.main → PastK s.main
      cases s.main <;> simp [PastU, PastK]
    rcases hu with rfl | ⟨_, hs⟩
    · exact hI.pastU h
    · exact absurd hs ((hI.pastK hp).2 i hi)
  · intro v hv j hj
    exact absurd (hI.returned v hv i hi) hne
  · intro j hj
    simp only
    by_cases hji : j = i
    · subst hji; rw [upd_self]; simp [hx, ← hI.logged j hj, hne]
    · rw [upd_ne _ _ hji]; exact hI.logged j hj
  · exact hI.logRange
  · exact hI.logOnce
  · obtain ⟨got, h1, h2⟩ := hI.got
    refine ⟨got, h1, ?_⟩
    revert h2
    simp only
    cases s.main with
    | recv acc => exact id
    | killK v | killU v | join v | ret v =>
      rintro ⟨h3, h4 | ⟨_, h5⟩⟩
      · exact ⟨h3, Or.inl h4⟩
      · exact absurd (h5 i hi) hne

theorem inv_kill (c : Cfg) (s : St) (hI : Inv c s) (i : Nat) (kq uq : List Nat)
    (hk : s.kq = i :: kq ∧ uq = s.uq ∨ kq = s.kq ∧ s.uq = i :: uq) :
    Inv c { s with th := kill s.th i, kq := kq, uq := uq } := by
  constructor
  · intro j hj h hkj
    obtain ⟨h1, h2⟩ := kill_run _ _ _ h
    have := hI.aliveK j hj h1 hkj
    rcases hk with ⟨h3, _⟩ | ⟨rfl, _⟩
    · rw [h3] at this; rcases List.mem_cons.1 this with h | h
      · exact absurd h h2
      · exact h
    · exact this
  · intro j hj h hkj
    obtain ⟨h1, h2⟩ := kill_run _ _ _ h
    have := hI.aliveU j hj h1 hkj
    rcases hk with ⟨_, rfl⟩ | ⟨_, h3⟩
    · exact this
    · rw [h3] at this; rcases List.mem_cons.1 this with h | h
      · exact absurd h h2
      · exact h
  · intro h
    obtain ⟨h1, h2⟩ := hI.pastK h
    refine ⟨?_, fun j hj => by simp only [Ne, kill_start]; exact h2 j hj⟩
    rcases hk with ⟨h3, _⟩ | ⟨rfl, _⟩
    · rw [h1] at h3; simp at h3
    · exact h1
  · intro h
    have h1 := hI.pastU h
    rcases hk with ⟨_, rfl⟩ | ⟨_, h3⟩
    · exact h1
    · rw [h1] at h3; simp at h3
  · intro v hv j hj
    simp only [kill_fin]; exact hI.returned v hv j hj
  · intro j hj; simp only [kill_fin]; exact hI.logged j hj
  · exact hI.logRange
  · exact hI.logOnce
  · obtain ⟨got, h1, h2⟩ := hI.got
    refine ⟨got, h1, ?_⟩
    revert h2
    show Reading c s.th s.fq got s.main → Reading c (kill s.th i) s.fq got s.main
    cases s.main <;> simp only [Reading, kill_fin] <;> exact id

/-- Only the main thread moves on. -/
theorem inv_main (c : Cfg) (s : St) (hI : Inv c s) (m : MPh)
    (hp : PastK m → s.kq = [] ∧ ∀ i, i < c.n → s.th i ≠ .start) (hpu : PastU m → s.uq = [])
    (hr : ∀ v, m = .ret v → ∀ i, i < c.n → s.th i = .fin)
    (fq : List Delivery)
    (hg : ∃ got, s.sent.map Prod.snd = got ++ fq ∧ Reading c s.th fq got m) :
    Inv c { s with main := m, fq := fq } :=
  ⟨hI.aliveK, hI.aliveU, hp, hpu, hr, hI.logged, hI.logRange, hI.logOnce, hg⟩

theorem inv_step (c : Cfg) {a : Actor} {s s' : St} (hI : Inv c s) (h : Step c a s s') : Inv c s' := by
  cases h with
  | fail _ i e hi hs => exact inv_send c s hI i _ hi (by rw [hs]; simp)
  | send _ i r hi hs => exact inv_send c s hI i r hi (by rw [hs]; simp)
  | spawnK _ i hi hs hk =>
    exact inv_move c s hI i (.run true) hi (by simp) (by simp) (by rw [hs]; simp) (s.kq ++ [i]) s.uq
      (Or.inr ⟨rfl, hs⟩) (Or.inl rfl) (fun _ => ⟨fun _ => by simp, fun h => by rw [hk] at h; simp at h⟩)
  | spawnU _ i hi hs hk =>
    exact inv_move c s hI i (.run true) hi (by simp) (by simp) (by rw [hs]; simp) s.kq (s.uq ++ [i])
      (Or.inl rfl) (Or.inr ⟨rfl, hs⟩) (fun _ => ⟨fun h => by rw [hk] at h; simp at h, fun _ => by simp⟩)
  | exit _ i hi hs =>
    exact inv_move c s hI i (.run false) hi (by simp) (by simp) (by rw [hs]; simp) s.kq s.uq
      (Or.inl rfl) (Or.inl rfl) (by simp)
  | popK _ v i rest hm hq => exact inv_kill c s hI i rest s.uq (Or.inl ⟨hq, rfl⟩)
  | popU _ v i rest hm hq => exact inv_kill c s hI i s.kq rest (Or.inr ⟨rfl, hq⟩)
  | closedK _ v hm hq hst =>
    obtain ⟨got, h1, h2⟩ := hI.got
    rw [hm] at h2
    exact inv_main c s hI (.killU v) (fun _ => ⟨hq, hst⟩) (by simp [PastU]) (by simp) s.fq ⟨got, h1, h2⟩
  | closedU _ v hm hq hst =>
    obtain ⟨got, h1, h2⟩ := hI.got
    have hp := hI.pastK (by rw [hm]; trivial)
    rw [hm] at h2
    exact inv_main c s hI (.join v) (fun _ => hp) (fun _ => hq) (by simp) s.fq ⟨got, h1, h2⟩
  | joined _ v hm hall =>
    obtain ⟨got, h1, h2⟩ := hI.got
    have hp := hI.pastK (by rw [hm]; trivial)
    have hpu := hI.pastU (by rw [hm]; trivial)
    rw [hm] at h2
    exact inv_main c s hI (.ret v) (fun _ => hp) (fun _ => hpu) (fun _ _ => hall) s.fq ⟨got, h1, h2⟩
  | closed _ acc hm hq hall =>
    obtain ⟨got, h1, h2⟩ := hI.got
    rw [hm] at h2
    refine inv_main c s hI (.killK (.ok (some acc))) (by simp [PastK]) (by simp [PastU]) (by simp) s.fq
      ⟨got, h1, ?_, Or.inr ⟨hq, hall⟩⟩
    rw [receive_none _ got h2.1, h2.2]; simp
  | recv _ acc d rest hm hq =>
    obtain ⟨got, h1, h2⟩ := hI.got
    rw [hm] at h2
    obtain ⟨h3, h4⟩ := h2
    have hsplit : s.sent.map Prod.snd = (got ++ [d]) ++ rest := by rw [h1, hq]; simp
    have hfd : Decisive d → FirstDecisive (got ++ [d]) d := fun hd => ⟨got, [], rfl, h3, hd⟩
    have hnd : ¬ Decisive d → (∀ x ∈ got ++ [d], ¬ Decisive x) := by
      intro hd x hx
      rcases List.mem_append.1 hx with hx | hx
      · exact h3 x hx
      · simp at hx; subst hx; exact hd
    have htm : timeouts (got ++ [d]) = timeouts got ++ timeouts [d] := by simp [timeouts]
    rcases d with ⟨k, e | o⟩
    · refine inv_main c s hI (react acc (k, .error e)) ?_ ?_ ?_ rest ⟨got ++ [(k, .error e)], hsplit, ?_⟩
      · cases k <;> simp [react, PastK]
      · cases k <;> simp [react, PastU]
      · cases k <;> simp [react]
      · have := hfd trivial
        have hr := receive_first (.ok ()) _ _ this []
        cases k <;> exact ⟨by rw [hr], Or.inl ⟨_, this⟩⟩
    · cases o with
      | sat =>
        refine inv_main c s hI (react acc (k, .ok .sat)) ?_ ?_ ?_ rest ⟨got ++ [(k, .ok .sat)], hsplit, ?_⟩
        · cases k <;> simp [react, PastK]
        · cases k <;> simp [react, PastU]
        · cases k <;> simp [react]
        · have := hfd trivial
          have hr := receive_first (.ok ()) _ _ this []
          cases k <;> exact ⟨by rw [hr], Or.inl ⟨_, this⟩⟩
      | unsat =>
        refine inv_main c s hI (react acc (k, .ok .unsat)) ?_ ?_ ?_ rest ⟨got ++ [(k, .ok .unsat)], hsplit, ?_⟩
        · cases k <;> simp [react, PastK]
        · cases k <;> simp [react, PastU]
        · cases k <;> simp [react]
        · have := hfd trivial
          have hr := receive_first (.ok ()) _ _ this []
          cases k <;> exact ⟨by rw [hr], Or.inl ⟨_, this⟩⟩
      | other =>
        refine inv_main c s hI (react acc (k, .ok .other)) ?_ ?_ ?_ rest ⟨got ++ [(k, .ok .other)], hsplit, ?_⟩
        · cases k <;> simp [react, PastK]
        · cases k <;> simp [react, PastU]
        · cases k <;> simp [react]
        · have := hnd (by simp [Decisive])
          cases k <;> exact ⟨this, by rw [htm, ← h4]; simp [timeouts]⟩
      | timeout t =>
        refine inv_main c s hI (react acc (k, .ok (.timeout t))) ?_ ?_ ?_ rest
          ⟨got ++ [(k, .ok (.timeout t))], hsplit, ?_⟩
        · cases k <;> simp [react, PastK]
        · cases k <;> simp [react, PastU]
        · cases k <;> simp [react]
        · have := hnd (by cases k <;> simp [Decisive])
          cases k <;> exact ⟨this, by rw [htm, ← h4]; simp [timeouts]⟩

theorem inv_reach (c : Cfg) {s : St} (h : Reach c s) : Inv c s := by
  induction h with
  | init => exact inv_init c
  | step _ hs ih => exact inv_step c ih hs

/-! ### The properties -/

/-- C50 (no deadlock): in every reachable state in which the main thread has not returned, some
transition is possible; and once the main thread has stopped waiting for results (a decisive answer
came, or all did), the tool itself can move — it never waits for a solver to end by itself. -/
theorem C50_no_deadlock (c : Cfg) {s : St} (h : Reach c s) (hr : ∀ v, s.main ≠ .ret v) :
    (∃ a s', Step c a s s') ∧ ((∀ acc, s.main ≠ .recv acc) → ∃ s', Step c .tool s s') := by
  have hI := inv_reach c h
  -- a thread that is not finished and not waiting for its process can move
  have hstart : ∀ i, i < c.n → s.th i = .start → ∃ s', Step c .tool s s' := by
    intro i hi hs
    exact ⟨_, Step.fail s i .nothingToDo hi hs⟩
  have hrunf : ∀ i, i < c.n → s.th i = .run false → ∃ s', Step c .tool s s' := by
    intro i hi hs
    exact ⟨_, Step.send s i (.ok .other) hi hs⟩
  have hnostart : (∀ i, i < c.n → s.th i ≠ .start) ∨ ∃ s', Step c .tool s s' := by
    by_cases hx : ∃ i, i < c.n ∧ s.th i = .start
    · obtain ⟨i, hi, hs⟩ := hx; exact Or.inr (hstart i hi hs)
    · left; intro i hi hs; exact hx ⟨i, hi, hs⟩
  have key : (∀ acc, s.main ≠ .recv acc) → ∃ s', Step c .tool s s' := by
    intro hnr
    rcases hm : s.main with acc | v | v | v | v
    · exact absurd hm (hnr acc)
    · rcases hq : s.kq with _ | ⟨i, rest⟩
      · rcases hnostart with hns | hx
        · exact ⟨_, Step.closedK s v hm hq hns⟩
        · exact hx
      · exact ⟨_, Step.popK s v i rest hm hq⟩
    · rcases hq : s.uq with _ | ⟨i, rest⟩
      · rcases hnostart with hns | hx
        · exact ⟨_, Step.closedU s v hm hq hns⟩
        · exact hx
      · exact ⟨_, Step.popU s v i rest hm hq⟩
    · by_cases hall : ∀ i, i < c.n → s.th i = .fin
      · exact ⟨_, Step.joined s v hm hall⟩
      · simp only [not_forall] at hall
        obtain ⟨i, hi, hne⟩ := hall
        rcases hs : s.th i with _ | b | _
        · exact hstart i hi hs
        · cases b with
          | false => exact hrunf i hi hs
          | true =>
            have hk := (hI.pastK (by rw [hm]; trivial)).1
            have hu := hI.pastU (by rw [hm]; trivial)
            cases hkk : c.killable i with
            | true => have := hI.aliveK i hi hs hkk; rw [hk] at this; simp at this
            | false => have := hI.aliveU i hi hs hkk; rw [hu] at this; simp at this
        · exact absurd hs hne
    · exact absurd hm (hr v)
  refine ⟨?_, key⟩
  by_cases hnr : ∀ acc, s.main ≠ .recv acc
  · obtain ⟨s', hs'⟩ := key hnr; exact ⟨_, s', hs'⟩
  · simp only [not_forall, not_not] at hnr
    obtain ⟨acc, hm⟩ := hnr
    rcases hq : s.fq with _ | ⟨d, rest⟩
    · by_cases hall : ∀ i, i < c.n → s.th i = .fin
      · exact ⟨_, _, Step.closed s acc hm hq hall⟩
      · simp only [not_forall] at hall
        obtain ⟨i, hi, hne⟩ := hall
        rcases hs : s.th i with _ | b | _
        · obtain ⟨s', hs'⟩ := hstart i hi hs; exact ⟨_, s', hs'⟩
        · cases b with
          | false => obtain ⟨s', hs'⟩ := hrunf i hi hs; exact ⟨_, s', hs'⟩
          | true => exact ⟨_, _, Step.exit s i hi hs⟩
        · exact absurd hs hne
    · exact ⟨_, _, Step.recv s acc d rest hm hq⟩

/-- C50 (nothing left behind): when the round returns, every thread has finished and no solver process
is alive. -/
theorem C50_clean_exit (c : Cfg) {s : St} (h : Reach c s) (v) (hv : s.main = .ret v) :
    ∀ i, i < c.n → s.th i = .fin := (inv_reach c h).returned v hv

/-- C50 (the receiver is always there): a thread that hands over its process never finds the killer
channels closed — when the main thread has closed a channel, no thread holds a handler any more. -/
theorem C50_no_lost_child (c : Cfg) {s : St} (h : Reach c s) (hp : PastK s.main) :
    ∀ i, i < c.n → s.th i ≠ .start := ((inv_reach c h).pastK hp).2

/-- C50 (the abstraction used for C16 is exact): the verdict with which a round returns is `receive`
applied to the results of all threads — exactly one per thread — in the order in which they were sent,
for every interleaving of threads, processes and killing. -/
theorem C50_verdict (c : Cfg) {s : St} (h : Reach c s) (v) (hv : s.main = .ret v) :
    v = receive (.ok ()) [] (s.sent.map Prod.snd) ∧
    (s.sent.map Prod.fst).Perm (List.range c.n) ∧
    ∀ x ∈ s.sent, x.2.1 = c.kind x.1 := by
  have hI := inv_reach c h
  refine ⟨?_, ?_, fun x hx => (hI.logRange x hx).2⟩
  · obtain ⟨got, h1, h2⟩ := hI.got
    rw [hv] at h2
    obtain ⟨h3, h4⟩ := h2
    rw [h3, h1]
    rcases h4 with ⟨r, hr⟩ | ⟨hq, _⟩
    · have hr' : FirstDecisive (got ++ s.fq) r := by
        obtain ⟨pre, post, rfl, h5, h6⟩ := hr
        exact ⟨pre, post ++ s.fq, by simp, h5, h6⟩
      rw [receive_first _ _ r hr, receive_first _ _ r hr']
    · rw [hq, List.append_nil]
  · apply (List.perm_ext_iff_of_nodup hI.logOnce List.nodup_range).2
    intro i
    rw [List.mem_range]
    constructor
    · intro hi
      obtain ⟨x, hx, rfl⟩ := List.mem_map.1 hi
      exact (hI.logRange x hx).1
    · intro hi
      exact (hI.logged i hi).1 (hI.returned v hv i hi)

/-- Non-vacuity: vampire (unkillable discoverer) and z3 (killable runner); z3 answers Unsat while vampire
still runs; vampire is killed and its late message does not matter. -/
def exCfg : Cfg := { n := 2, kind := fun i => if i = 0 then .discoverer else .runner, killable := fun i => i = 1 }

example : ∃ s, Reach exCfg s ∧ s.main = .ret (.ok none) ∧ s.sent.length = 2 := by
  have r0 := Reach.init (c := exCfg)
  have r1 := r0.step (Step.spawnU _ 0 (by decide) rfl rfl)
  have r2 := r1.step (Step.spawnK _ 1 (by decide) rfl rfl)
  have r3 := r2.step (Step.exit _ 1 (by decide) rfl)
  have r4 := r3.step (Step.send _ 1 (.ok .unsat) (by decide) rfl)
  have r5 := r4.step (Step.recv _ [] _ [] rfl rfl)
  have r6 := r5.step (Step.popK _ _ 1 [] rfl rfl)
  have r7 := r6.step (Step.closedK _ _ rfl rfl (by
    intro i hi; have : i = 0 ∨ i = 1 := by have : i < 2 := hi; omega
    rcases this with rfl | rfl <;> decide))
  have r8 := r7.step (Step.popU _ _ 0 [] rfl rfl)
  have r9 := r8.step (Step.closedU _ _ rfl rfl (by
    intro i hi; have : i = 0 ∨ i = 1 := by have : i < 2 := hi; omega
    rcases this with rfl | rfl <;> decide))
  have r10 := r9.step (Step.send _ 0 (.ok .other) (by decide) rfl)
  have r11 := r10.step (Step.joined _ _ rfl (by
    intro i hi; have : i = 0 ∨ i = 1 := by have : i < 2 := hi; omega
    rcases this with rfl | rfl <;> decide))
  exact ⟨_, r11, rfl, rfl⟩

end CV.Conc
