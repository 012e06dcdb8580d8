import Verif.IndRules
import Mathlib.Data.List.Forall2
import Mathlib.Tactic.Tauto
set_option linter.unusedSimpArgs false
/-
Property C70: the searches that apply IND-CCA2 and ENC-KP in the prototype for indistinguishability.
-/
namespace CV
namespace Ind

/-! ### Specification -/

/-- The terms of a class of an e-graph. -/
inductive Rep (G : EG) : Nat → Tm → Prop
  | node {i n args} (hn : n ∈ G i) (hl : n.ch.length = args.length) (ha : ∀ z ∈ n.ch.zip args, Rep G z.1 z.2) :
      Rep G i (.app n.op args)

/-- Every class in use (below `N`) has a term; children are in use; a node is in one class only; decryptions have two
arguments; the arguments of nonces are constants, and no nonce is equal to a constant. -/
structure WF (N : Nat) (G : EG) (rep : Nat → Tm) : Prop where
  rep : ∀ i, i < N → Rep G i (rep i)
  low : ∀ i, ∀ n ∈ G i, i < N ∧ ∀ j ∈ n.ch, j < N
  one : ∀ i j n, n ∈ G i → n ∈ G j → i = j
  dec : ∀ i, ∀ n ∈ G i, n.op = .dec → n.ch.length = 2
  nonce : ∀ i, ∀ n ∈ G i, n.op = .nonce → ∀ j ∈ n.ch, ∃ s, Rep G j (.app (.const s) [])
  fresh : ∀ i, ∀ n ∈ G i, n.op = .nonce → ∀ s, ¬ Rep G i (.app (.const s) [])

theorem Rep.one {N : Nat} {G : EG} {rep : Nat → Tm} (h : WF N G rep) {i j : Nat} {t : Tm} (hi : Rep G i t) (hj : Rep G j t) : i = j := by
  induction hi generalizing j with
  | node hn hl ha ih =>
    rename_i i n args
    generalize ht : Tm.app n.op args = t at hj
    cases hj with
    | node hn' hl' ha' =>
      rename_i n' args'
      injection ht with h1 h2
      subst h2
      have hch : n.ch = n'.ch := by
        apply List.ext_getElem (hl.trans hl'.symm)
        intro m hm hm'
        have h1 : m < args.length := hl ▸ hm
        have hz : (n.ch[m], args[m]) ∈ n.ch.zip args :=
          List.mem_iff_getElem.2 ⟨m, by simp [List.length_zip]; omega, by simp⟩
        have hz' : (n'.ch[m], args[m]) ∈ n'.ch.zip args :=
          List.mem_iff_getElem.2 ⟨m, by simp [List.length_zip]; omega, by simp⟩
        exact ih _ hz (ha' _ hz')
      have : n = n' := by
        cases n; cases n'
        simp only at h1 hch
        subst h1; subst hch; rfl
      subst this
      exact h.one _ _ _ hn hn'

/-- Which occurrences of a nonce are allowed: as the key of a decryption, as the argument of `pk`. -/
structure Allow where
  dec : Bool
  pk : Bool

/-- The nonce `k` occurs in a term only where allowed. Terms in `ign` are not looked into. -/
inductive Hides (A : Allow) (ign : Tm → Prop) (k : Tm) : Tm → Prop
  | ignored {t} (h : ign t) : Hides A ign k t
  | dec {x} (h : A.dec = true) (hx : Hides A ign k x) : Hides A ign k (.app .dec [x, k])
  | pk (h : A.pk = true) : Hides A ign k (.app .pk [k])
  | app {f args} (hne : Tm.app f args ≠ k) (ha : ∀ a ∈ args, Hides A ign k a) : Hides A ign k (.app f args)

/-- Equal by what the e-graph has established. -/
def Same (G : EG) (t u : Tm) : Prop := ∃ i, Rep G i t ∧ Rep G i u

/-- Not equal to `k`, but equal to a term in which `k` occurs only where allowed. -/
def HidesUpTo (G : EG) (A : Allow) (ign : Tm → Prop) (k t : Tm) : Prop := ¬ Same G t k ∧ ∃ u, Same G t u ∧ Hides A ign k u

/-- `c` is replaced by `c'` in a context whose other parts are `ok`. -/
inductive Ctx (ok : Tm → Prop) (c c' : Tm) : Tm → Tm → Prop
  | here : Ctx ok c c' c c'
  | app {f as bs} (sw : Tm × Tm → Prop) (hl : as.length = bs.length) (h : ∀ z ∈ as.zip bs, sw z → Ctx ok c c' z.1 z.2)
      (h' : ∀ z ∈ as.zip bs, ¬ sw z → z.1 = z.2 ∧ ok z.1) : Ctx ok c c' (.app f as) (.app f bs)

/-- IND-CCA2: the encryption of a message is replaced by that of zeroes of the same length; in the message and in the
rest of the term, the key is only used for encryption and decryption and the randomness is not used. -/
def Cca (G : EG) (ign₀ ign : Tm → Prop) (m k r : Tm) (old new : Tm) : Prop :=
  ¬ Same G k r ∧ (HidesUpTo G ⟨true, true⟩ ign₀ k m ∧ HidesUpTo G ⟨false, false⟩ ign₀ r m) ∧
  Ctx (fun t => HidesUpTo G ⟨true, true⟩ ign k t ∧ HidesUpTo G ⟨false, false⟩ ign r t)
    (.app .enc [m, r, .app .pk [k]]) (.app .enc [.app .zeroes [.app .length [m]], r, .app .pk [k]]) old new

/-- ENC-KP: the key of an encryption is replaced; in the message and in the rest of the term, the keys are only used for
decryption and the randomness is not used. -/
def Kp (G : EG) (ign₀ ign : Tm → Prop) (m k k' r : Tm) (old new : Tm) : Prop :=
  (¬ Same G k k' ∧ ¬ Same G k r ∧ ¬ Same G k' r) ∧ (HidesUpTo G ⟨true, false⟩ ign₀ k m ∧ HidesUpTo G ⟨true, false⟩ ign₀ k' m ∧ HidesUpTo G ⟨false, false⟩ ign₀ r m) ∧
  Ctx (fun t => HidesUpTo G ⟨true, false⟩ ign k t ∧ HidesUpTo G ⟨true, false⟩ ign k' t ∧ HidesUpTo G ⟨false, false⟩ ign r t)
    (.app .enc [m, r, .app .pk [k]]) (.app .enc [m, r, .app .pk [k']]) old new

/-! ### Going down -/

/-- What the search down establishes, on classes. -/
inductive CleanC (G : EG) (next : Node → List Nat) (ign : Nat → Prop) (k : Nat) : Nat → Prop
  | ignored {i} (hne : i ≠ k) (h : ign i) : CleanC G next ign k i
  | node {i n} (hne : i ≠ k) (hn : n ∈ G i) (ha : ∀ j ∈ next n, CleanC G next ign k j) : CleanC G next ign k i

/-- The map only tells what holds. -/
def MemoOK (P : Nat → Prop) (m : Memo) : Prop := ∀ i, m i = some .notFound → P i

theorem MemoOK.insert {P : Nat → Prop} {m : Memo} (h : MemoOK P m) {i : Nat} {s : Status} (hs : s = .notFound → P i) :
    MemoOK P (m.insert i s) := by
  intro j hj
  unfold Memo.insert at hj
  split at hj
  · rename_i e
    subst e
    cases hj
    exact hs rfl
  · exact h j hj

theorem allM_sound {P : Nat → Prop} {f : Memo → Nat → Option (Bool × Memo)}
    (hf : ∀ m i r, MemoOK P m → f m i = some r → MemoOK P r.2 ∧ (r.1 = true → P i)) :
    ∀ (l : List Nat) (m : Memo) (r : Bool × Memo), MemoOK P m → allM f m l = some r → MemoOK P r.2 ∧ (r.1 = true → ∀ i ∈ l, P i)
  | [], m, r, hm, h => by
    simp only [allM] at h
    cases h
    exact ⟨hm, fun _ => nofun⟩
  | i :: is, m, r, hm, h => by
    simp only [allM] at h
    obtain ⟨q, hq, h⟩ := Option.bind_eq_some_iff.1 h
    obtain ⟨hm₁, h₁⟩ := hf m i q hm hq
    split at h
    · rename_i ht
      obtain ⟨hm₂, h₂⟩ := allM_sound hf is q.2 r hm₁ h
      exact ⟨hm₂, fun e => List.forall_mem_cons.2 ⟨h₁ ht, h₂ e⟩⟩
    · cases h
      exact ⟨hm₁, fun e => (nomatch e)⟩

theorem anyM_sound {P : Nat → Prop} {Q : Node → Prop} {f : Memo → Node → Option (Bool × Memo)}
    (hf : ∀ m n r, MemoOK P m → f m n = some r → MemoOK P r.2 ∧ (r.1 = true → Q n)) :
    ∀ (l : List Node) (m : Memo) (r : Bool × Memo), MemoOK P m → anyM f m l = some r → MemoOK P r.2 ∧ (r.1 = true → ∃ n ∈ l, Q n)
  | [], m, r, hm, h => by
    simp only [anyM] at h
    cases h
    exact ⟨hm, fun e => (nomatch e)⟩
  | n :: ns, m, r, hm, h => by
    simp only [anyM] at h
    obtain ⟨q, hq, h⟩ := Option.bind_eq_some_iff.1 h
    obtain ⟨hm₁, h₁⟩ := hf m n q hm hq
    split at h
    · rename_i ht
      cases h
      exact ⟨hm₁, fun _ => ⟨n, List.mem_cons_self .., h₁ ht⟩⟩
    · obtain ⟨hm₂, h₂⟩ := anyM_sound hf ns q.2 r hm₁ h
      exact ⟨hm₂, fun e => by obtain ⟨n', hn', hq'⟩ := h₂ e; exact ⟨n', List.mem_cons_of_mem _ hn', hq'⟩⟩

theorem down_sound {G : EG} {next : Node → List Nat} {ignore : List Nat} {k : Nat} {ign : Nat → Prop} (hi : ∀ i ∈ ignore, ign i) :
    ∀ (fuel : Nat) (m : Memo) (t : Nat) (r : Bool × Memo), MemoOK (CleanC G next ign k) m →
      down G next ignore k fuel m t = some r → MemoOK (CleanC G next ign k) r.2 ∧ (r.1 = true → CleanC G next ign k t)
  | 0, _, _, _, _, h => by cases h
  | fuel + 1, m, t, r, hm, h => by
    simp only [down] at h
    split at h
    · cases h; exact ⟨hm, fun e => (nomatch e)⟩
    · cases h; exact ⟨hm, fun e => (nomatch e)⟩
    · rename_i hmt
      cases h; exact ⟨hm, fun _ => hm t hmt⟩
    · obtain ⟨q, hq, hr⟩ := Option.map_eq_some_iff.1 h
      subst hr
      have key : MemoOK (CleanC G next ign k) q.2 ∧ (q.1 = true → CleanC G next ign k t) := by
        split at hq
        · cases hq; exact ⟨hm, fun e => (nomatch e)⟩
        rename_i hne
        split at hq
        · rename_i hig
          cases hq; exact ⟨hm, fun _ => .ignored hne (hi t hig)⟩
        · have := anyM_sound (P := CleanC G next ign k) (Q := fun n => ∀ j ∈ next n, CleanC G next ign k j)
            (fun m n r hm h => allM_sound (down_sound hi fuel) (next n) m r hm h) (G t) (m.insert t .searching) q
            (hm.insert (fun e => (nomatch e))) hq
          refine ⟨this.1, fun e => ?_⟩
          obtain ⟨n, hn, ha⟩ := this.2 e
          exact .node hne hn ha
      refine ⟨key.1.insert ?_, key.2⟩
      intro e
      apply key.2
      revert e
      cases q.1 <;> simp [statusOf]

/-! ### From classes to terms -/

/-- What is not looked into: terms of ignored classes, and `input`. -/
def Ign (G : EG) (ign : Nat → Prop) (t : Tm) : Prop := (∃ i, ign i ∧ Rep G i t) ∨ ∃ x, t = .app .input x

/-- Choosing the terms of the arguments of a node. -/
theorem choose_args {G : EG} {n : Node} {i : Nat} (hn : n ∈ G i) {Q : Nat → Tm → Prop} (h : ∀ j ∈ n.ch, ∃ t, Rep G j t ∧ Q j t) :
    ∃ args, n.ch.length = args.length ∧ Rep G i (.app n.op args) ∧ ∀ z ∈ n.ch.zip args, Q z.1 z.2 := by
  have key : ∀ l : List Nat, (∀ j ∈ l, ∃ t, Rep G j t ∧ Q j t) → ∃ args : List Tm, l.length = args.length ∧
      ∀ z ∈ l.zip args, Rep G z.1 z.2 ∧ Q z.1 z.2 := by
    intro l
    induction l with
    | nil => intro _; exact ⟨[], rfl, nofun⟩
    | cons j l ih =>
      intro h
      obtain ⟨t, ht⟩ := h j (List.mem_cons_self ..)
      obtain ⟨args, hl, ha⟩ := ih (fun j hj => h j (List.mem_cons_of_mem _ hj))
      refine ⟨t :: args, by simp [hl], ?_⟩
      intro z hz
      rw [List.zip_cons_cons, List.mem_cons] at hz
      rcases hz with rfl | hz
      · exact ht
      · exact ha z hz
  obtain ⟨args, hl, ha⟩ := key n.ch h
  exact ⟨args, hl, .node hn hl (fun z hz => (ha z hz).1), fun z hz => (ha z hz).2⟩

theorem zip_mem_right {α β : Type} {l : List α} {l' : List β} (h : l.length = l'.length) {b : β} (hb : b ∈ l') :
    ∃ a, (a, b) ∈ l.zip l' := by
  obtain ⟨i, hi, rfl⟩ := List.mem_iff_getElem.1 hb
  exact ⟨l[i]'(h ▸ hi), List.mem_iff_getElem.2 ⟨i, by simp [List.length_zip]; omega, by simp⟩⟩

/-- A check is right for what it allows: the children it does not look at are the key at an allowed place, or are under
`input` or `nonce`. -/
def Right (A : Allow) (next : Node → List Nat) (k : Nat) : Prop :=
  ∀ n : Node, (n.op = .dec → n.ch.length = 2) →
    n.op = .input ∨ (A.dec = true ∧ ∃ x, n = ⟨.dec, [x, k]⟩ ∧ next n = [x]) ∨ (A.pk = true ∧ n = ⟨.pk, [k]⟩) ∨ next n = n.ch ∨ n.op = .nonce

theorem right_key (k : Nat) : Right ⟨true, true⟩ (nextKey k) k := by
  intro n hd
  obtain ⟨f, ch⟩ := n
  unfold nextKey
  split
  · rename_i h
    obtain ⟨h1, h2⟩ := h
    simp only at h1 h2 hd
    subst h1
    right; left
    obtain ⟨x, y, rfl⟩ := List.length_eq_two.1 (hd rfl)
    simp only [List.getElem?_cons_succ, List.getElem?_cons_zero, Option.some.injEq] at h2
    subst h2
    exact ⟨rfl, x, rfl, rfl⟩
  · split
    · rename_i h
      obtain ⟨h1, h2⟩ := h
      simp only at h1 h2
      subst h1; subst h2
      exact .inr (.inr (.inl ⟨rfl, rfl⟩))
    · split
      · rename_i h; exact .inl h
      · exact .inr (.inr (.inr (.inl rfl)))

theorem right_rand (k : Nat) : Right ⟨false, false⟩ nextRand k := by
  intro n _
  unfold nextRand
  split
  · rename_i h; exact .inl h
  · exact .inr (.inr (.inr (.inl rfl)))

theorem right_kpKey (k : Nat) : Right ⟨true, false⟩ (nextKpKey k) k := by
  intro n hd
  obtain ⟨f, ch⟩ := n
  unfold nextKpKey
  split
  · rename_i h
    obtain ⟨h1, h2⟩ := h
    simp only at h1 h2 hd
    subst h1
    right; left
    obtain ⟨x, y, rfl⟩ := List.length_eq_two.1 (hd rfl)
    simp only [List.getElem?_cons_succ, List.getElem?_cons_zero, Option.some.injEq] at h2
    subst h2
    exact ⟨rfl, x, rfl, rfl⟩
  · split
    · rename_i h
      rcases h with h | h
      · exact .inr (.inr (.inr (.inr h)))
      · exact .inl h
    · exact .inr (.inr (.inr (.inl rfl)))

theorem right_kpRand (k : Nat) : Right ⟨false, false⟩ nextKpRand k := by
  intro n _
  unfold nextKpRand
  split
  · rename_i h
    rcases h with h | h
    · exact .inr (.inr (.inr (.inr h)))
    · exact .inl h
  · exact .inr (.inr (.inr (.inl rfl)))

theorem clean_hides {N : Nat} {G : EG} {rep : Nat → Tm} (hW : WF N G rep) {A : Allow} {next : Node → List Nat} {k : Nat} (hR : Right A next k)
    {ign : Nat → Prop} {kt : Tm} (hk : Rep G k kt) (hnc : ∀ s, ¬ Rep G k (.app (.const s) [])) {i : Nat} (hiN : i < N)
    (h : CleanC G next ign k i) : ∃ t, Rep G i t ∧ Hides A (Ign G ign) kt t := by
  have hne : ∀ {i t}, i ≠ k → Rep G i t → t ≠ kt := by
    intro i t hik ht e
    subst e
    exact hik (Rep.one hW ht hk)
  induction h with
  | ignored hik hi =>
    rename_i i
    exact ⟨rep i, hW.rep i hiN, .ignored (.inl ⟨i, hi, hW.rep i hiN⟩)⟩
  | node hik hn ha ih =>
    rename_i i n
    have plain : (∀ j ∈ n.ch, ∃ t, Rep G j t ∧ Hides A (Ign G ign) kt t) → ∃ t, Rep G i t ∧ Hides A (Ign G ign) kt t := by
      intro hall
      obtain ⟨args, hl, hr, hq⟩ := choose_args hn (Q := fun _ t => Hides A (Ign G ign) kt t) hall
      refine ⟨_, hr, .app (hne hik hr) ?_⟩
      intro a ha'
      obtain ⟨j, hj⟩ := zip_mem_right hl ha'
      exact hq _ hj
    have hlow := (hW.low i n hn).2
    rcases hR n (hW.dec i n hn) with ho | ⟨hA, x, rfl, hx⟩ | ⟨hA, rfl⟩ | hall | ho
    · obtain ⟨args, hl, hr, _⟩ := choose_args hn (Q := fun _ _ => True) (fun j hj => ⟨rep j, hW.rep j (hlow j hj), trivial⟩)
      exact ⟨_, hr, .ignored (.inr ⟨args, by rw [ho]⟩)⟩
    · obtain ⟨t, ht, hh⟩ := ih x (by rw [hx]; exact List.mem_singleton_self x) (hlow x (by simp))
      have hr : Rep G i (.app .dec [t, kt]) := by
        refine .node hn rfl ?_
        intro z hz
        simp only [List.zip_cons_cons, List.zip_nil_right, List.mem_cons, List.not_mem_nil, or_false] at hz
        rcases hz with rfl | rfl
        · exact ht
        · exact hk
      exact ⟨_, hr, .dec hA hh⟩
    · have hr : Rep G i (.app .pk [kt]) := by
        refine .node hn rfl ?_
        intro z hz
        simp only [List.zip_cons_cons, List.zip_nil_right, List.mem_cons, List.not_mem_nil, or_false] at hz
        subst hz
        exact hk
      exact ⟨_, hr, .pk hA⟩
    · exact plain (fun j hj => ih j (by rw [hall]; exact hj) (hlow j hj))
    · refine plain (fun j hj => ?_)
      obtain ⟨s, hs⟩ := hW.nonce i n hn ho j hj
      have hjk : j ≠ k := fun e => hnc s (e ▸ hs)
      exact ⟨_, hs, .app (hne hjk hs) nofun⟩

/-! ### The checks of siblings -/

/-- What a check establishes. -/
def Check.Says (G : EG) (ign : Nat → Prop) (c : Check) (i : Nat) : Prop := CleanC G c.next ign c.nonce i

def MemosOK (G : EG) (ign : Nat → Prop) : List Check → List Memo → Prop
  | c :: cs, m :: ms => MemoOK (c.Says G ign) m ∧ MemosOK G ign cs ms
  | [], [] => True
  | _, _ => False

theorem valid_sound {G : EG} {ignore : List Nat} {ign : Nat → Prop} (hi : ∀ i ∈ ignore, ign i) {fuel : Nat} :
    ∀ (cs : List Check) (ms : List Memo) (i : Nat) (r : Bool × List Memo), MemosOK G ign cs ms → valid G ignore fuel cs ms i = some r →
      MemosOK G ign cs r.2 ∧ (r.1 = true → ∀ c ∈ cs, c.Says G ign i)
  | [], [], i, r, hm, h => by
    simp only [valid] at h
    cases h
    exact ⟨trivial, fun _ => nofun⟩
  | c :: cs, [], _, _, hm, _ => hm.elim
  | [], _ :: _, _, _, hm, _ => hm.elim
  | c :: cs, m :: ms, i, r, hm, h => by
    simp only [valid] at h
    obtain ⟨q, hq, h⟩ := Option.bind_eq_some_iff.1 h
    obtain ⟨hm₁, h₁⟩ := down_sound hi fuel m i q hm.1 hq
    split at h
    · rename_i ht
      obtain ⟨q', hq', rfl⟩ := Option.map_eq_some_iff.1 h
      obtain ⟨hm₂, h₂⟩ := valid_sound hi cs ms i q' hm.2 hq'
      exact ⟨⟨hm₁, hm₂⟩, fun e => List.forall_mem_cons.2 ⟨h₁ ht, h₂ e⟩⟩
    · cases h
      exact ⟨⟨hm₁, hm.2⟩, fun e => (nomatch e)⟩

theorem siblings_sound {G : EG} {ignore : List Nat} {ign : Nat → Prop} (hi : ∀ i ∈ ignore, ign i) {fuel : Nat} {cs : List Check} {id : Nat} :
    ∀ (l : List Nat) (ms : List Memo) (r : Bool × List Memo), MemosOK G ign cs ms → siblings G ignore fuel cs id ms l = some r →
      MemosOK G ign cs r.2 ∧ (r.1 = true → ∀ s ∈ l, s ≠ id → ∀ c ∈ cs, c.Says G ign s)
  | [], ms, r, hm, h => by
    simp only [siblings] at h
    cases h
    exact ⟨hm, fun _ => nofun⟩
  | s :: ss, ms, r, hm, h => by
    simp only [siblings] at h
    split at h
    · rename_i he
      obtain ⟨h1, h2⟩ := siblings_sound hi ss ms r hm h
      exact ⟨h1, fun e => List.forall_mem_cons.2 ⟨fun hne => absurd he hne, h2 e⟩⟩
    · obtain ⟨q, hq, h⟩ := Option.bind_eq_some_iff.1 h
      obtain ⟨hm₁, h₁⟩ := valid_sound hi cs ms s q hm hq
      split at h
      · rename_i ht
        obtain ⟨h1, h2⟩ := siblings_sound hi ss q.2 r hm₁ h
        exact ⟨h1, fun e => List.forall_mem_cons.2 ⟨fun _ => h₁ ht, h2 e⟩⟩
      · cases h
        exact ⟨hm₁, fun e => (nomatch e)⟩

theorem checkAll_sound {G : EG} {fuel : Nat} {i : Nat} : ∀ (cs : List Check) (r : Bool × List Memo), checkAll G fuel i cs = some r →
    r.1 = true → (∀ c ∈ cs, c.Says G (fun _ => False) i) ∧ MemosOK G (fun _ => False) cs r.2
  | [], r, h, _ => by
    simp only [checkAll] at h
    cases h
    exact ⟨nofun, trivial⟩
  | c :: cs, r, h, hr => by
    simp only [checkAll] at h
    obtain ⟨q, hq, h⟩ := Option.bind_eq_some_iff.1 h
    obtain ⟨hm₁, h₁⟩ := down_sound (G := G) (next := c.next) (ignore := []) (k := c.nonce) (ign := fun _ => False)
      (fun _ h => (nomatch h)) fuel (fun _ => none) i q (fun _ h => (nomatch h)) hq
    split at h
    · rename_i ht
      obtain ⟨q', hq', rfl⟩ := Option.map_eq_some_iff.1 h
      obtain ⟨h1, h2⟩ := checkAll_sound cs q' hq' hr
      exact ⟨List.forall_mem_cons.2 ⟨h₁ ht, h1⟩, hm₁, h2⟩
    · cases h
      cases hr

theorem CleanC.mono {G : EG} {next : Node → List Nat} {ign ign' : Nat → Prop} {k : Nat} (hi : ∀ i, ign i → ign' i) {i : Nat}
    (h : CleanC G next ign k i) : CleanC G next ign' k i := by
  induction h with
  | ignored hne h => exact .ignored hne (hi _ h)
  | node hne hn ha ih => exact .node hne hn ih

theorem MemosOK.mono {G : EG} {ign ign' : Nat → Prop} (hi : ∀ i, ign i → ign' i) : ∀ {cs : List Check} {ms : List Memo},
    MemosOK G ign cs ms → MemosOK G ign' cs ms
  | [], [], _ => trivial
  | _ :: _, _ :: _, h => ⟨fun i e => (h.1 i e).mono hi, MemosOK.mono hi h.2⟩
  | _ :: _, [], h => h.elim
  | [], _ :: _, h => h.elim

/-! ### Going up -/

/-- A class reached from `c` through nodes whose other children pass the checks. -/
inductive Path (G : EG) (ign : Nat → Prop) (cs : List Check) (rep : Nat → Tm) (c : Nat) (t₀ : Tm) : Nat → Tm → Prop
  | here : Path G ign cs rep c t₀ c t₀
  | up {i t p n} (h : Path G ign cs rep c t₀ i t) (hn : n ∈ G p) (hi : i ∈ n.ch) (hs : ∀ s ∈ n.ch, s ≠ i → ∀ c ∈ cs, c.Says G ign s) :
      Path G ign cs rep c t₀ p (.app n.op (n.ch.map fun j => if j = i then t else rep j))

structure SrchOK (G : EG) (ign : Nat → Prop) (cs : List Check) (rep : Nat → Tm) (c : Nat) (t₀ : Tm) (s : Srch) : Prop where
  todos : ∀ p ∈ s.todos, Path G ign cs rep c t₀ p.1 p.2
  memos : MemosOK G ign cs s.memos

theorem upOnce_sound {G : EG} {rep : Nat → Tm} {ignore : List Nat} {ign : Nat → Prop} (hi : ∀ i ∈ ignore, ign i) {fuel : Nat} {cs : List Check}
    {c : Nat} {t₀ : Tm} {l : Node} {p i : Nat} {t : Tm} {s s' : Srch} (hs : SrchOK G ign cs rep c t₀ s) (hp : Path G ign cs rep c t₀ i t)
    (hl : l ∈ G p) (hil : i ∈ l.ch) (h : upOnce G rep ignore fuel cs l p i t s = some s') : SrchOK G ign cs rep c t₀ s' := by
  obtain ⟨r, hr, rfl⟩ := Option.map_eq_some_iff.1 h
  obtain ⟨h1, h2⟩ := siblings_sound hi l.ch s.memos r hs.memos hr
  dsimp only
  split
  · rename_i ht
    unfold Srch.push
    split
    · exact ⟨hs.todos, h1⟩
    · refine ⟨?_, h1⟩
      intro q hq
      rw [List.mem_append, List.mem_singleton] at hq
      rcases hq with hq | rfl
      · exact hs.todos q (List.mem_filter.1 hq).1
      · exact .up hp hl hil (h2 ht)
  · exact ⟨hs.todos, h1⟩

theorem ups_sound {G : EG} {rep : Nat → Tm} {ignore : List Nat} {ign : Nat → Prop} (hi : ∀ i ∈ ignore, ign i) {fuel : Nat} {cs : List Check}
    {c : Nat} {t₀ : Tm} {i : Nat} {t : Tm} (hp : Path G ign cs rep c t₀ i t) : ∀ (ps : List (Node × Nat)) (s s' : Srch),
    (∀ p ∈ ps, p.1 ∈ G p.2 ∧ i ∈ p.1.ch) → SrchOK G ign cs rep c t₀ s → ups G rep ignore fuel cs i t ps s = some s' →
    SrchOK G ign cs rep c t₀ s'
  | [], s, s', _, hs, h => by simp only [ups] at h; cases h; exact hs
  | (l, p) :: ps, s, s', hps, hs, h => by
    simp only [ups] at h
    obtain ⟨q, hq, h⟩ := Option.bind_eq_some_iff.1 h
    have := hps (l, p) (List.mem_cons_self ..)
    exact ups_sound hi hp ps q s' (fun p hp => hps p (List.mem_cons_of_mem _ hp)) (upOnce_sound hi hs hp this.1 this.2 hq) h

theorem run_sound {G : EG} {rep : Nat → Tm} {parents : Nat → List (Node × Nat)} (hpar : ∀ i, ∀ p ∈ parents i, p.1 ∈ G p.2 ∧ i ∈ p.1.ch)
    {order : List (Nat × Tm) → List (Nat × Tm)} (hord : ∀ l, ∀ p ∈ order l, p ∈ l) {ignore : List Nat} {ign : Nat → Prop}
    (hi : ∀ i ∈ ignore, ign i) {dfuel : Nat} {cs : List Check} {c : Nat} {t₀ : Tm} : ∀ (fuel : Nat) (s : Srch) (res : List (Nat × Tm)),
    SrchOK G ign cs rep c t₀ s → run G rep parents order ignore dfuel cs fuel s = some res →
    ∀ p ∈ res, Path G ign cs rep c t₀ p.1 p.2 ∧ ∃ n ∈ G p.1, n.op = .equiv
  | 0, _, _, _, h => by cases h
  | fuel + 1, s, res, hs, h => by
    simp only [run] at h
    split at h
    · cases h; nofun
    · rename_i i t rest ho
      have hit : Path G ign cs rep c t₀ i t := hs.todos (i, t) (hord s.todos (i, t) (by rw [ho]; exact List.mem_cons_self ..))
      have hs' : SrchOK G ign cs rep c t₀ { s with todos := s.todos.filter (fun p => p.1 ≠ i), done := i :: s.done } :=
        ⟨fun p hp => hs.todos p (List.mem_filter.1 hp).1, hs.memos⟩
      split at h
      · rename_i heq
        obtain ⟨res', hr, rfl⟩ := Option.map_eq_some_iff.1 h
        obtain ⟨n, hn, he⟩ := List.any_eq_true.1 heq
        exact List.forall_mem_cons.2 ⟨⟨hit, n, hn, by simpa using he⟩, run_sound hpar hord hi fuel _ res' hs' hr⟩
      · obtain ⟨s'', hu, h⟩ := Option.bind_eq_some_iff.1 h
        exact run_sound hpar hord hi fuel s'' res (ups_sound hi hit _ _ _ (hpar i) hs' hu) h

/-- From paths to contexts. -/
theorem path_ctx {N : Nat} {G : EG} {rep : Nat → Tm} (hW : WF N G rep) {ign : Nat → Prop} {cs : List Check} {c : Nat} {t₀ t₁ : Tm} {ok : Tm → Prop}
    (hok : ∀ s, s < N → (∀ c ∈ cs, c.Says G ign s) → ok (rep s)) (hc : Rep G c t₁) {p : Nat} {t : Tm} (h : Path G ign cs rep c t₀ p t) :
    ∃ old, Rep G p old ∧ Ctx ok t₁ t₀ old t := by
  induction h with
  | here => exact ⟨t₁, hc, .here⟩
  | up _ hn hi hs ih =>
    rename_i i t p n _
    obtain ⟨old, hr, hx⟩ := ih
    have hlow := (hW.low p n hn).2
    refine ⟨.app n.op (n.ch.map fun j => if j = i then old else rep j), .node hn (by simp) ?_, ?_⟩
    · intro z hz
      rw [List.zip_map_right] at hz
      obtain ⟨y, hy, rfl⟩ := List.mem_map.1 hz
      have hyy : y.1 = y.2 := by
        obtain ⟨m, hm, e⟩ := List.mem_iff_getElem.1 hy
        rw [← e]; simp
      simp only [Prod.map, id]
      rw [hyy]
      split
      · rename_i e; rw [e]; exact hr
      · exact hW.rep _ (hlow _ (hyy ▸ (List.of_mem_zip hy).1))
    · refine .app (fun z => z = (old, t)) (by simp) ?_ ?_
      · rintro _ _ rfl
        exact hx
      · intro z hz hne
        rw [List.zip_map'] at hz
        obtain ⟨j, hj, rfl⟩ := List.mem_map.1 hz
        by_cases hji : j = i
        · exact absurd (by simp [hji]) hne
        · simp only [if_neg hji]
          exact ⟨trivial, hok j (hlow j hj) (hs j hj hji)⟩

theorem nonce_fresh {N : Nat} {G : EG} {rep : Nat → Tm} (hW : WF N G rep) {k : Nat} (h : isNonce G k = true) :
    k < N ∧ ∀ s, ¬ Rep G k (.app (.const s) []) := by
  obtain ⟨n, hn, he⟩ := List.any_eq_true.1 h
  exact ⟨(hW.low k n hn).1, hW.fresh k n hn (by simpa using he)⟩

theorem not_same {N : Nat} {G : EG} {rep : Nat → Tm} (hW : WF N G rep) {i j : Nat} (hi : i < N) (hj : j < N) (h : i ≠ j) :
    ¬ Same G (rep i) (rep j) := by
  rintro ⟨x, h1, h2⟩
  exact h ((Rep.one hW (hW.rep i hi) h1).trans (Rep.one hW h2 (hW.rep j hj)))

theorem says_hides {N : Nat} {G : EG} {rep : Nat → Tm} (hW : WF N G rep) {A : Allow} {ign : Nat → Prop} {next : Node → List Nat} {k : Nat}
    (hR : Right A next k) (hk : isNonce G k = true) {s : Nat} (hs : s < N) (h : Check.Says G ign ⟨next, k⟩ s) :
    HidesUpTo G A (Ign G ign) (rep k) (rep s) := by
  obtain ⟨hkN, hf⟩ := nonce_fresh hW hk
  obtain ⟨t, ht, hh⟩ := clean_hides hW hR (hW.rep k hkN) hf hs h
  exact ⟨not_same hW hs hkN (by cases h <;> assumption), t, ⟨s, hW.rep s hs, ht⟩, hh⟩

/-- What a match of `(enc ?m ?r (pk ?k))` is (ind_cca.rs:294-313, enc_kp.rs:335-360). -/
structure Matched (G : EG) (I : Inst) : Prop where
  node : ∃ p, ⟨.enc, [I.m, I.r, p]⟩ ∈ G I.c ∧ ⟨.pk, [I.k]⟩ ∈ G p

theorem Matched.rep {N : Nat} {G : EG} {rep : Nat → Tm} (hW : WF N G rep) {I : Inst} (h : Matched G I) :
    I.m < N ∧ Rep G I.c (.app .enc [rep I.m, rep I.r, .app .pk [rep I.k]]) := by
  obtain ⟨p, h1, h2⟩ := h.node
  have l1 := (hW.low _ _ h1).2
  have l2 := (hW.low _ _ h2).2
  refine ⟨l1 I.m (by simp), .node h1 rfl ?_⟩
  intro z hz
  simp only [List.zip_cons_cons, List.zip_nil_right, List.mem_cons, List.not_mem_nil, or_false] at hz
  rcases hz with rfl | rfl | rfl
  · exact hW.rep _ (l1 _ (by simp))
  · exact hW.rep _ (l1 _ (by simp))
  · refine .node h2 rfl ?_
    intro z hz
    simp only [List.zip_cons_cons, List.zip_nil_right, List.mem_cons, List.not_mem_nil, or_false] at hz
    subst hz
    exact hW.rep _ (l2 _ (by simp))

/-- The search for IND-CCA2, on classes. -/
theorem cca_paths {G : EG} {rep : Nat → Tm} {parents : Nat → List (Node × Nat)} (hpar : ∀ i, ∀ p ∈ parents i, p.1 ∈ G p.2 ∧ i ∈ p.1.ch)
    {order : List (Nat × Tm) → List (Nat × Tm)} (hord : ∀ l, ∀ p ∈ order l, p ∈ l) {dfuel fuel : Nat} {I : Inst} {res : List (Nat × Tm)}
    (h : indCca G rep parents order dfuel fuel I = some res) {p : Nat × Tm} (hp : p ∈ res) :
    I.k ≠ I.r ∧ isNonce G I.k = true ∧ isNonce G I.r = true ∧ Check.Says G (fun _ => False) ⟨nextKey I.k, I.k⟩ I.m ∧ Check.Says G (fun _ => False) ⟨nextRand, I.r⟩ I.m ∧
    Path G (· = I.c) [⟨nextKey I.k, I.k⟩, ⟨nextRand, I.r⟩] rep I.c
      (.app .enc [.app .zeroes [.app .length [rep I.m]], rep I.r, .app .pk [rep I.k]]) p.1 p.2 ∧ ∃ n ∈ G p.1, n.op = .equiv := by
  unfold indCca at h
  split at h
  · cases h; cases hp
  rename_i hkr
  split at h
  · cases h; cases hp
  rename_i hn
  simp only [Bool.not_eq_true', Bool.not_eq_false, Bool.and_eq_true] at hn
  dsimp only at h
  obtain ⟨r, hr, h⟩ := Option.bind_eq_some_iff.1 h
  split at h
  · rename_i ht
    obtain ⟨h1, h2⟩ := checkAll_sound _ r hr ht
    have hs := run_sound hpar hord (ign := (· = I.c)) (by intro i hi; exact List.mem_singleton.1 hi) fuel _ res
      (cs := [⟨nextKey I.k, I.k⟩, ⟨nextRand, I.r⟩]) (c := I.c)
      ⟨List.forall_mem_singleton.2 .here, h2.mono (fun _ h => h.elim)⟩ h p hp
    exact ⟨hkr, hn.1, hn.2, h1 _ (List.mem_cons_self ..), h1 _ (List.mem_cons_of_mem _ (List.mem_singleton_self _)), hs.1, hs.2⟩
  · cases h; cases hp

/-- **C70 (IND-CCA2; partial).** Every term reported is obtained from a term of the class it is made equal to by replacing
an encryption by that of zeroes of the same length. In the message and in the rest of the term, the key is used only for
encryption and decryption and the randomness is not used, *except inside copies of the replaced encryption and under
`input`, which are not looked into*, and up to the equalities of the graph, for each nonce on its own. Missing: those
copies (`C70_copy_counterexample`) and `input`. -/
theorem C70_cca_partial {N : Nat} {G : EG} {rep : Nat → Tm} (hW : WF N G rep) {parents : Nat → List (Node × Nat)}
    (hpar : ∀ i, ∀ p ∈ parents i, p.1 ∈ G p.2 ∧ i ∈ p.1.ch) {order : List (Nat × Tm) → List (Nat × Tm)} (hord : ∀ l, ∀ p ∈ order l, p ∈ l)
    {dfuel fuel : Nat} {I : Inst} (hI : Matched G I) {res : List (Nat × Tm)} (h : indCca G rep parents order dfuel fuel I = some res) :
    ∀ p ∈ res, ∃ old, Rep G p.1 old ∧ Cca G (Ign G fun _ => False) (Ign G (· = I.c)) (rep I.m) (rep I.k) (rep I.r) old p.2 := by
  intro p hp
  obtain ⟨hkr, hk, hr, h1, h2, h3, _⟩ := cca_paths hpar hord h hp
  obtain ⟨hm, hc⟩ := hI.rep hW
  obtain ⟨old, ho, hx⟩ := path_ctx hW (ok := fun t => HidesUpTo G ⟨true, true⟩ (Ign G (· = I.c)) (rep I.k) t ∧
    HidesUpTo G ⟨false, false⟩ (Ign G (· = I.c)) (rep I.r) t) (fun s hs hc =>
      ⟨says_hides hW (right_key _) hk hs (hc _ (List.mem_cons_self ..)),
        says_hides hW (right_rand _) hr hs (hc _ (List.mem_cons_of_mem _ (List.mem_singleton_self _)))⟩) hc h3
  exact ⟨old, ho, not_same hW (nonce_fresh hW hk).1 (nonce_fresh hW hr).1 hkr, ⟨says_hides hW (right_key _) hk hm h1, says_hides hW (right_rand _) hr hm h2⟩, hx⟩

/-- The search for ENC-KP, on classes. -/
theorem kp_paths {G : EG} {rep : Nat → Tm} {parents : Nat → List (Node × Nat)} (hpar : ∀ i, ∀ p ∈ parents i, p.1 ∈ G p.2 ∧ i ∈ p.1.ch)
    {order : List (Nat × Tm) → List (Nat × Tm)} (hord : ∀ l, ∀ p ∈ order l, p ∈ l) {dfuel fuel : Nat} {I : Inst} {nk : Nat} {res : List (Nat × Tm)}
    (h : encKp G rep parents order dfuel fuel I nk = some res) {p : Nat × Tm} (hp : p ∈ res) :
    I.k ≠ nk ∧ I.k ≠ I.r ∧ isNonce G I.k = true ∧ isNonce G I.r = true ∧
    (∀ c ∈ [(⟨nextKpRand, I.r⟩ : Check), ⟨nextKpKey I.k, I.k⟩, ⟨nextKpKey nk, nk⟩], c.Says G (fun _ => False) I.m) ∧
    Path G (· = I.c) [⟨nextKpRand, I.r⟩, ⟨nextKpKey I.k, I.k⟩, ⟨nextKpKey nk, nk⟩] rep I.c
      (.app .enc [rep I.m, rep I.r, .app .pk [rep nk]]) p.1 p.2 ∧ ∃ n ∈ G p.1, n.op = .equiv := by
  unfold encKp at h
  split at h
  · cases h; cases hp
  rename_i hkn
  split at h
  · cases h; cases hp
  rename_i hkr
  split at h
  · cases h; cases hp
  rename_i hn
  simp only [Bool.not_eq_true', Bool.not_eq_false, Bool.and_eq_true] at hn
  dsimp only at h
  obtain ⟨r, hr, h⟩ := Option.bind_eq_some_iff.1 h
  split at h
  · rename_i ht
    obtain ⟨h1, h2⟩ := checkAll_sound _ r hr ht
    have h2' : MemosOK G (· = I.c) [⟨nextKpRand, I.r⟩, ⟨nextKpKey I.k, I.k⟩, ⟨nextKpKey nk, nk⟩] (rot r.2) := by
      have := h2.mono (ign' := (· = I.c)) (fun _ h => h.elim)
      revert this
      match r.2 with
      | [] | [_] | [_, _] | _ :: _ :: _ :: _ :: _ => intro h; simp [MemosOK] at h
      | [a, b, c] => intro h; exact ⟨h.2.2.1, h.1, h.2.1, trivial⟩
    have hs := run_sound hpar hord (ign := (· = I.c)) (by intro i hi; exact List.mem_singleton.1 hi) fuel _ res
      (cs := [⟨nextKpRand, I.r⟩, ⟨nextKpKey I.k, I.k⟩, ⟨nextKpKey nk, nk⟩]) (c := I.c)
      ⟨List.forall_mem_singleton.2 .here, h2'⟩ h p hp
    refine ⟨hkn, hkr, hn.1, hn.2, ?_, hs.1, hs.2⟩
    intro c hc
    apply h1
    simp only [List.mem_cons, List.not_mem_nil, or_false] at hc ⊢
    tauto
  · cases h; cases hp

/-- **C70 (ENC-KP; partial).** The same for the replacement of the key of an encryption, *when the new key is not the
randomness of that encryption*, which is not checked (`C70_kp_randomness_counterexample`). -/
theorem C70_kp_partial {N : Nat} {G : EG} {rep : Nat → Tm} (hW : WF N G rep) {parents : Nat → List (Node × Nat)}
    (hpar : ∀ i, ∀ p ∈ parents i, p.1 ∈ G p.2 ∧ i ∈ p.1.ch) {order : List (Nat × Tm) → List (Nat × Tm)} (hord : ∀ l, ∀ p ∈ order l, p ∈ l)
    {dfuel fuel : Nat} {I : Inst} (hI : Matched G I) {nk : Nat} (hnk : isNonce G nk = true) (hr : nk ≠ I.r) {res : List (Nat × Tm)}
    (h : encKp G rep parents order dfuel fuel I nk = some res) :
    ∀ p ∈ res, ∃ old, Rep G p.1 old ∧
      Kp G (Ign G fun _ => False) (Ign G (· = I.c)) (rep I.m) (rep I.k) (rep nk) (rep I.r) old p.2 := by
  intro p hp
  obtain ⟨e1, e2, n1, n2, h1, h3, _⟩ := kp_paths hpar hord h hp
  obtain ⟨hm, hc⟩ := hI.rep hW
  have all : ∀ (ign : Nat → Prop) s, s < N →
      (∀ c ∈ [(⟨nextKpRand, I.r⟩ : Check), ⟨nextKpKey I.k, I.k⟩, ⟨nextKpKey nk, nk⟩], c.Says G ign s) →
      HidesUpTo G ⟨true, false⟩ (Ign G ign) (rep I.k) (rep s) ∧ HidesUpTo G ⟨true, false⟩ (Ign G ign) (rep nk) (rep s) ∧
        HidesUpTo G ⟨false, false⟩ (Ign G ign) (rep I.r) (rep s) := fun ign s hs hc =>
    ⟨says_hides hW (right_kpKey _) n1 hs (hc _ (by simp)), says_hides hW (right_kpKey _) hnk hs (hc _ (by simp)),
      says_hides hW (right_kpRand _) n2 hs (hc _ (by simp))⟩
  obtain ⟨old, ho, hx⟩ := path_ctx hW (ok := fun t => HidesUpTo G ⟨true, false⟩ (Ign G (· = I.c)) (rep I.k) t ∧
      HidesUpTo G ⟨true, false⟩ (Ign G (· = I.c)) (rep nk) t ∧ HidesUpTo G ⟨false, false⟩ (Ign G (· = I.c)) (rep I.r) t)
    (all (· = I.c)) hc h3
  have lk := (nonce_fresh hW n1).1
  have lr := (nonce_fresh hW n2).1
  have ln := (nonce_fresh hW hnk).1
  exact ⟨old, ho, ⟨not_same hW lk ln e1, not_same hW lk lr e2, not_same hW ln lr hr⟩, all _ _ hm h1, hx⟩

/-! ### When nothing is overlooked -/

/-- A class whose terms may have terms of `c` inside. -/
inductive Reach (G : EG) (c : Nat) : Nat → Prop
  | here : Reach G c c
  | up {i n p} (hn : n ∈ G p) (hi : i ∈ n.ch) (h : Reach G c i) : Reach G c p

theorem clean_strict {G : EG} {next : Node → List Nat} (hsub : ∀ n, ∀ j ∈ next n, j ∈ n.ch) {c k i : Nat} (h : CleanC G next (· = c) k i)
    (hr : ¬ Reach G c i) : CleanC G next (fun _ => False) k i := by
  induction h with
  | ignored _ e => exact absurd (e ▸ .here) hr
  | node hne hn ha ih => exact .node hne hn (fun j hj => ih j hj (fun h => hr (.up hn (hsub _ j hj) h)))

theorem sub_key (k : Nat) : ∀ n, ∀ j ∈ nextKey k n, j ∈ n.ch := by
  intro n j h
  unfold nextKey at h
  split at h
  · exact List.mem_of_mem_take h
  split at h
  · cases h
  split at h
  · cases h
  · exact h

theorem sub_kpKey (k : Nat) : ∀ n, ∀ j ∈ nextKpKey k n, j ∈ n.ch := by
  intro n j h
  unfold nextKpKey at h
  split at h
  · exact List.mem_of_mem_take h
  split at h
  · cases h
  · exact h

theorem sub_kpRand : ∀ n, ∀ j ∈ nextKpRand n, j ∈ n.ch := by
  intro n j h
  unfold nextKpRand at h
  split at h
  · cases h
  · exact h

theorem sub_rand : ∀ n, ∀ j ∈ nextRand n, j ∈ n.ch := by
  intro n j h
  unfold nextRand at h
  split at h
  · cases h
  · exact h

theorem no_input {G : EG} (hin : ∀ i, ∀ n ∈ G i, n.op ≠ .input) {A : Allow} {k : Tm} {i : Nat} {t : Tm} (ht : Rep G i t)
    (h : Hides A (Ign G fun _ => False) k t) : Hides A (fun _ => False) k t := by
  induction h generalizing i with
  | ignored h =>
    rcases h with ⟨_, h, _⟩ | ⟨x, rfl⟩
    · exact h.elim
    · generalize e : Tm.app .input x = t at ht
      cases ht with
      | node hn _ _ =>
        injection e with e1 _
        exact absurd e1.symm (hin _ _ hn)
  | dec h hx ih =>
    rename_i x
    refine .dec h ?_
    generalize e : Tm.app .dec [x, k] = t at ht
    cases ht with
    | node hn hl ha =>
      injection e with _ e2
      subst e2
      obtain ⟨j, hj⟩ := zip_mem_right hl (List.mem_cons_self ..)
      exact ih (ha _ hj)
  | pk h => exact .pk h
  | app hne ha ih =>
    rename_i f args
    refine .app hne fun a hmem => ?_
    generalize e : Tm.app f args = t at ht
    cases ht with
    | node hn hl ha' =>
      injection e with _ e2
      subst e2
      obtain ⟨j, hj⟩ := zip_mem_right hl hmem
      exact ih a hmem (ha' _ hj)

theorem path_strict {G : EG} {rep : Nat → Tm} {c : Nat} (hone : ∀ p, ∀ n ∈ G p, ∀ s ∈ n.ch, ∀ s' ∈ n.ch, Reach G c s → Reach G c s' → s = s')
    {cs : List Check} (hsub : ∀ k ∈ cs, ∀ n, ∀ j ∈ k.next n, j ∈ n.ch) {t₀ : Tm} {q : Nat} {t : Tm} (h : Path G (· = c) cs rep c t₀ q t) :
    Reach G c q ∧ Path G (fun _ => False) cs rep c t₀ q t := by
  induction h with
  | here => exact ⟨.here, .here⟩
  | up _ hn hi hs ih =>
    refine ⟨.up hn hi ih.1, .up ih.2 hn hi ?_⟩
    intro s hs' hne k hk
    exact clean_strict (hsub k hk) (hs s hs' hne k hk) (fun hr => hne (hone _ _ hn s hs' _ hi hr ih.1))

theorem says_strict {N : Nat} {G : EG} {rep : Nat → Tm} (hW : WF N G rep) (hin : ∀ i, ∀ n ∈ G i, n.op ≠ .input) {A : Allow}
    {next : Node → List Nat} {k : Nat} (hR : Right A next k) (hk : isNonce G k = true) {s : Nat} (hs : s < N)
    (hc : Check.Says G (fun _ => False) ⟨next, k⟩ s) : HidesUpTo G A (fun _ => False) (rep k) (rep s) := by
  obtain ⟨hne, u, ⟨i, hi1, hi2⟩, hu⟩ := says_hides hW hR hk hs hc
  exact ⟨hne, u, ⟨i, hi1, hi2⟩, no_input hin hi2 hu⟩

/-- **C70 (IND-CCA2, when nothing is overlooked; partial).** When the encryption occurs along one path only (no node has
two different children that may contain it) and `input` is not used, every replacement reported is an instance of
IND-CCA2. -/
theorem C70_cca_single_partial {N : Nat} {G : EG} {rep : Nat → Tm} (hW : WF N G rep) {parents : Nat → List (Node × Nat)}
    (hpar : ∀ i, ∀ p ∈ parents i, p.1 ∈ G p.2 ∧ i ∈ p.1.ch) {order : List (Nat × Tm) → List (Nat × Tm)} (hord : ∀ l, ∀ p ∈ order l, p ∈ l)
    {dfuel fuel : Nat} {I : Inst} (hI : Matched G I) (hone : ∀ p, ∀ n ∈ G p, ∀ s ∈ n.ch, ∀ s' ∈ n.ch, Reach G I.c s → Reach G I.c s' → s = s')
    (hin : ∀ i, ∀ n ∈ G i, n.op ≠ .input) {res : List (Nat × Tm)} (h : indCca G rep parents order dfuel fuel I = some res) :
    ∀ p ∈ res, ∃ old, Rep G p.1 old ∧ Cca G (fun _ => False) (fun _ => False) (rep I.m) (rep I.k) (rep I.r) old p.2 := by
  intro p hp
  obtain ⟨hkr, hk, hr, h1, h2, h3, _⟩ := cca_paths hpar hord h hp
  obtain ⟨hm, hc⟩ := hI.rep hW
  obtain ⟨old, ho, hx⟩ := path_ctx hW (ok := fun t => HidesUpTo G ⟨true, true⟩ (fun _ => False) (rep I.k) t ∧
    HidesUpTo G ⟨false, false⟩ (fun _ => False) (rep I.r) t) (fun s hs hc =>
      ⟨says_strict hW hin (right_key _) hk hs (hc _ (List.mem_cons_self ..)),
        says_strict hW hin (right_rand _) hr hs (hc _ (List.mem_cons_of_mem _ (List.mem_singleton_self _)))⟩) hc (path_strict hone (cs := [⟨nextKey I.k, I.k⟩, ⟨nextRand, I.r⟩])
        (List.forall_mem_cons.2 ⟨sub_key _, List.forall_mem_singleton.2 sub_rand⟩) h3).2
  exact ⟨old, ho, not_same hW (nonce_fresh hW hk).1 (nonce_fresh hW hr).1 hkr, ⟨says_strict hW hin (right_key _) hk hm h1, says_strict hW hin (right_rand _) hr hm h2⟩, hx⟩

/-- **C70 (ENC-KP, when nothing is overlooked; partial).** -/
theorem C70_kp_single_partial {N : Nat} {G : EG} {rep : Nat → Tm} (hW : WF N G rep) {parents : Nat → List (Node × Nat)}
    (hpar : ∀ i, ∀ p ∈ parents i, p.1 ∈ G p.2 ∧ i ∈ p.1.ch) {order : List (Nat × Tm) → List (Nat × Tm)} (hord : ∀ l, ∀ p ∈ order l, p ∈ l)
    {dfuel fuel : Nat} {I : Inst} (hI : Matched G I) (hone : ∀ p, ∀ n ∈ G p, ∀ s ∈ n.ch, ∀ s' ∈ n.ch, Reach G I.c s → Reach G I.c s' → s = s')
    (hin : ∀ i, ∀ n ∈ G i, n.op ≠ .input) {nk : Nat} (hnk : isNonce G nk = true) (hr : nk ≠ I.r) {res : List (Nat × Tm)}
    (h : encKp G rep parents order dfuel fuel I nk = some res) :
    ∀ p ∈ res, ∃ old, Rep G p.1 old ∧
      Kp G (fun _ => False) (fun _ => False) (rep I.m) (rep I.k) (rep nk) (rep I.r) old p.2 := by
  intro p hp
  obtain ⟨e1, e2, n1, n2, h1, h3, _⟩ := kp_paths hpar hord h hp
  obtain ⟨hm, hc⟩ := hI.rep hW
  have all : ∀ s, s < N →
      (∀ c ∈ [(⟨nextKpRand, I.r⟩ : Check), ⟨nextKpKey I.k, I.k⟩, ⟨nextKpKey nk, nk⟩], c.Says G (fun _ => False) s) →
      HidesUpTo G ⟨true, false⟩ (fun _ => False) (rep I.k) (rep s) ∧ HidesUpTo G ⟨true, false⟩ (fun _ => False) (rep nk) (rep s) ∧
        HidesUpTo G ⟨false, false⟩ (fun _ => False) (rep I.r) (rep s) := fun s hs hc =>
    ⟨says_strict hW hin (right_kpKey _) n1 hs (hc _ (by simp)), says_strict hW hin (right_kpKey _) hnk hs (hc _ (by simp)),
      says_strict hW hin (right_kpRand _) n2 hs (hc _ (by simp))⟩
  obtain ⟨old, ho, hx⟩ := path_ctx hW (ok := fun t => HidesUpTo G ⟨true, false⟩ (fun _ => False) (rep I.k) t ∧
      HidesUpTo G ⟨true, false⟩ (fun _ => False) (rep nk) t ∧ HidesUpTo G ⟨false, false⟩ (fun _ => False) (rep I.r) t)
    all hc (path_strict hone (cs := [⟨nextKpRand, I.r⟩, ⟨nextKpKey I.k, I.k⟩, ⟨nextKpKey nk, nk⟩])
      (List.forall_mem_cons.2 ⟨sub_kpRand, List.forall_mem_cons.2 ⟨sub_kpKey _, List.forall_mem_singleton.2 (sub_kpKey _)⟩⟩) h3).2
  have lk := (nonce_fresh hW n1).1
  have lr := (nonce_fresh hW n2).1
  have ln := (nonce_fresh hW hnk).1
  exact ⟨old, ho, ⟨not_same hW lk ln e1, not_same hW lk lr e2, not_same hW ln lr hr⟩, all _ hm h1, hx⟩

end Ind
end CV
