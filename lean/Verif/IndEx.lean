import Verif.IndTotal
set_option linter.unusedSimpArgs false
/-
Property C70, continued: examples, and what the searches get wrong.
-/
namespace CV
namespace Ind
namespace Ex

/-- An e-graph given by the nodes of its classes. -/
def gr (l : List (List Node)) : EG := fun i => l[i]?.getD []

/-- A term of each class, by its last node. -/
def tmOf (l : List (List Node)) : Nat → Nat → Tm
  | 0, _ => .var ""
  | f + 1, i => match (gr l i).getLast? with
    | some n => .app n.op (n.ch.map (tmOf l f))
    | none => .var ""

def rp (l : List (List Node)) : Nat → Tm := tmOf l l.length

def parentsOf (l : List (List Node)) (i : Nat) : List (Node × Nat) :=
  (List.range l.length).flatMap fun p => ((gr l p).filter fun n => n.ch.contains i).map fun n => (n, p)

def isConst (n : Node) : Bool := match n with
  | ⟨.const _, []⟩ => true
  | _ => false

/-- What is computed to know that an e-graph is well formed. -/
def good (l : List (List Node)) : Bool :=
  (List.range l.length).all fun i =>
    (match (gr l i).getLast? with
      | some n => n.ch.all (· < i)
      | none => false) &&
    (gr l i).all fun n =>
      n.ch.all (· < l.length) && (n.op != .dec || n.ch.length == 2) && (n.op != .nonce || n.ch.all fun j => (gr l j).any isConst) &&
      (n.op != .nonce || (gr l i).all fun n' => !isConst n') && (List.range l.length).all fun j => !(gr l j).contains n || i == j

theorem gr_lt {l : List (List Node)} {i : Nat} {n : Node} (h : n ∈ gr l i) : i < l.length := by
  by_contra hc
  simp [gr, List.getElem?_eq_none (Nat.le_of_not_lt hc)] at h

theorem good_spec {l : List (List Node)} (h : good l = true) {i : Nat} (hi : i < l.length) :
    (∃ n, (gr l i).getLast? = some n ∧ ∀ j ∈ n.ch, j < i) ∧ ∀ n ∈ gr l i, (∀ j ∈ n.ch, j < l.length) ∧ (n.op = .dec → n.ch.length = 2) ∧
      (n.op = .nonce → ∀ j ∈ n.ch, ∃ n' ∈ gr l j, isConst n' = true) ∧ (n.op = .nonce → ∀ n' ∈ gr l i, isConst n' = false) ∧
      ∀ j, n ∈ gr l j → i = j := by
  have := List.all_eq_true.1 h i (List.mem_range.2 hi)
  rw [Bool.and_eq_true] at this
  obtain ⟨h1, h2⟩ := this
  refine ⟨?_, ?_⟩
  · split at h1
    · rename_i n hn
      exact ⟨n, hn, fun j hj => by simpa using List.all_eq_true.1 h1 j hj⟩
    · cases h1
  · intro n hn
    have := List.all_eq_true.1 h2 n hn
    simp only [Bool.and_eq_true] at this
    obtain ⟨⟨⟨⟨a1, a2⟩, a3⟩, a4⟩, a5⟩ := this
    refine ⟨fun j hj => by simpa using List.all_eq_true.1 a1 j hj, fun e => by simpa [e] using a2, fun e j hj => ?_, fun e n' hn' => ?_, fun j hj => ?_⟩
    · simp only [e, bne_self_eq_false, Bool.false_or] at a3
      exact List.any_eq_true.1 (List.all_eq_true.1 a3 j hj)
    · simp only [e, bne_self_eq_false, Bool.false_or] at a4
      simpa using List.all_eq_true.1 a4 n' hn'
    · have := List.all_eq_true.1 a5 j (List.mem_range.2 (gr_lt hj))
      simpa [hj] using this

theorem rep_tmOf {l : List (List Node)} (h : good l = true) : ∀ (f i : Nat), i < f → i < l.length → Rep (gr l) i (tmOf l f i)
  | 0, _, h, _ => by omega
  | f + 1, i, hf, hi => by
    obtain ⟨n, hn, hlt⟩ := (good_spec h hi).1
    rw [tmOf, hn]
    refine .node (List.mem_of_getLast? hn) (by simp) ?_
    intro z hz
    rw [List.zip_map_right] at hz
    obtain ⟨y, hy, rfl⟩ := List.mem_map.1 hz
    have hyy : y.1 = y.2 := by
      obtain ⟨m, hm, e⟩ := List.mem_iff_getElem.1 hy
      rw [← e]; simp
    simp only [Prod.map, id]
    rw [hyy]
    have := hlt y.2 (hyy ▸ (List.of_mem_zip hy).1)
    exact rep_tmOf h f y.2 (by omega) (by omega)

theorem isConst_rep {l : List (List Node)} {j : Nat} {n : Node} (hn : n ∈ gr l j) (h : isConst n = true) : ∃ s, Rep (gr l) j (.app (.const s) []) := by
  unfold isConst at h
  split at h
  · rename_i s
    exact ⟨s, .node hn rfl nofun⟩
  · cases h

theorem good_wf {l : List (List Node)} (h : good l = true) : WF l.length (gr l) (rp l) where
  rep i hi := rep_tmOf h _ i hi hi
  low i n hn := ⟨gr_lt hn, ((good_spec h (gr_lt hn)).2 n hn).1⟩
  one i j n hi hj := ((good_spec h (gr_lt hi)).2 n hi).2.2.2.2 j hj
  dec i n hn := ((good_spec h (gr_lt hn)).2 n hn).2.1
  nonce i n hn e j hj := by
    obtain ⟨n', hn', hc⟩ := ((good_spec h (gr_lt hn)).2 n hn).2.2.1 e j hj
    exact isConst_rep hn' hc
  fresh i n hn e s hr := by
    generalize ht : Tm.app (.const s) [] = t at hr
    cases hr with
    | @node _ n' args hn' hl _ =>
      injection ht with h1 h2
      subst h2
      have hc := ((good_spec h (gr_lt hn)).2 n hn).2.2.2.1 e n' hn'
      obtain ⟨o, ch⟩ := n'
      simp only at h1 hl
      subst h1
      have : ch = [] := List.length_eq_zero_iff.1 hl
      subst this
      simp [isConst] at hc

theorem parents_sound (l : List (List Node)) : ∀ i, ∀ p ∈ parentsOf l i, p.1 ∈ gr l p.2 ∧ i ∈ p.1.ch := by
  intro i p hp
  obtain ⟨q, _, hq⟩ := List.mem_flatMap.1 hp
  obtain ⟨n, hn, rfl⟩ := List.mem_map.1 hq
  obtain ⟨h1, h2⟩ := List.mem_filter.1 hn
  exact ⟨h1, by simpa using h2⟩

theorem parents_complete (l : List (List Node)) : ∀ i p, ∀ n ∈ gr l p, i ∈ n.ch → (n, p) ∈ parentsOf l i := by
  intro i p n hn hi
  exact List.mem_flatMap.2 ⟨p, List.mem_range.2 (gr_lt hn), List.mem_map.2 ⟨n, List.mem_filter.2 ⟨hn, by simpa using hi⟩, rfl⟩⟩

/-- The classes of `enc(m, nonce r, pk(nonce k))`. -/
def base : List (List Node) :=
  [[⟨.const "k", []⟩], [⟨.nonce, [0]⟩], [⟨.const "r", []⟩], [⟨.nonce, [2]⟩], [⟨.pk, [1]⟩], [⟨.const "m", []⟩], [⟨.enc, [5, 3, 4]⟩]]

def inst : Inst := ⟨5, 1, 3, 6⟩

def k : Tm := .app .nonce [.app (.const "k") []]
def r : Tm := .app .nonce [.app (.const "r") []]
def m : Tm := .app (.const "m") []
def n : Tm := .app (.const "n") []
def c : Tm := .app .enc [m, r, .app .pk [k]]
/-- The encryption of zeroes. -/
def c' : Tm := .app .enc [.app .zeroes [.app .length [m]], r, .app .pk [k]]

/-! ### An example -/

/-- `equiv(tuple(enc(m, r, pk k), tuple(dec(n, k), pk k)))`. -/
def g1 : List (List Node) := base ++ [[⟨.const "n", []⟩], [⟨.dec, [7, 1]⟩], [⟨.tuple, [8, 4]⟩], [⟨.tuple, [6, 9]⟩], [⟨.equiv, [10]⟩]]

theorem g1_run : indCca (gr g1) (rp g1) (parentsOf g1) id 13 13 inst =
    some [(11, .app .equiv [.app .tuple [c', .app .tuple [.app .dec [n, k], .app .pk [k]]]])] := by rfl

theorem base_matched (l : List (List Node)) : Matched (gr (base ++ l)) inst := ⟨4, by simp [gr, base, inst], by simp [gr, base, inst]⟩

theorem g1_one : ∀ p, ∀ n ∈ gr g1 p, ∀ s ∈ n.ch, ∀ s' ∈ n.ch, Reach (gr g1) inst.c s → Reach (gr g1) inst.c s' → s = s' := by
  have hr : ∀ s, Reach (gr g1) inst.c s → s = 6 ∨ s = 10 ∨ s = 11 := by
    intro s h
    induction h with
    | here => exact .inl rfl
    | up hn hi _ ih =>
      rename_i i n p _
      have := gr_lt hn
      simp only [g1, base, List.length_append, List.length_cons, List.length_nil] at this
      have hp : p = 0 ∨ p = 1 ∨ p = 2 ∨ p = 3 ∨ p = 4 ∨ p = 5 ∨ p = 6 ∨ p = 7 ∨ p = 8 ∨ p = 9 ∨ p = 10 ∨ p = 11 := by omega
      rcases hp with rfl | rfl | rfl | rfl | rfl | rfl | rfl | rfl | rfl | rfl | rfl | rfl <;> simp [gr, g1, base] at hn <;> subst hn <;>
        simp at hi <;> omega
  intro p n hn s hs s' hs' h1 h2
  have := gr_lt hn
  simp only [g1, base, List.length_append, List.length_cons, List.length_nil] at this
  have h1 := hr s h1
  have h2 := hr s' h2
  have hp : p = 0 ∨ p = 1 ∨ p = 2 ∨ p = 3 ∨ p = 4 ∨ p = 5 ∨ p = 6 ∨ p = 7 ∨ p = 8 ∨ p = 9 ∨ p = 10 ∨ p = 11 := by omega
  rcases hp with rfl | rfl | rfl | rfl | rfl | rfl | rfl | rfl | rfl | rfl | rfl | rfl <;> simp [gr, g1, base] at hn <;> subst hn <;>
    simp at hs hs' <;> omega

/-- The hypotheses of `C70_cca_single_partial` are met. -/
example : ∃ old, Rep (gr g1) 11 old ∧
    Cca (gr g1) (fun _ => False) (fun _ => False) m k r old (.app .equiv [.app .tuple [c', .app .tuple [.app .dec [n, k], .app .pk [k]]]]) :=
  C70_cca_single_partial (good_wf (l := g1) (by rfl)) (parents_sound g1) (fun _ _ h => h) (base_matched _) g1_one
    (by
      intro p n hn
      have := gr_lt hn
      simp only [g1, base, List.length_append, List.length_cons, List.length_nil] at this
      have hp : p = 0 ∨ p = 1 ∨ p = 2 ∨ p = 3 ∨ p = 4 ∨ p = 5 ∨ p = 6 ∨ p = 7 ∨ p = 8 ∨ p = 9 ∨ p = 10 ∨ p = 11 := by omega
      rcases hp with rfl | rfl | rfl | rfl | rfl | rfl | rfl | rfl | rfl | rfl | rfl | rfl <;> simp [gr, g1, base] at hn <;> subst hn <;> simp)
    g1_run _ (List.mem_singleton_self _)

/-- `equiv(tuple(enc(m, r, pk k), dec(n, k2)))`, with a new key `k2`. -/
def g2 : List (List Node) :=
  base ++ [[⟨.const "n", []⟩], [⟨.const "k2", []⟩], [⟨.nonce, [8]⟩], [⟨.dec, [7, 9]⟩], [⟨.tuple, [6, 10]⟩], [⟨.equiv, [11]⟩]]

def k2 : Tm := .app .nonce [.app (.const "k2") []]

theorem g2_run : encKp (gr g2) (rp g2) (parentsOf g2) id 14 14 inst 9 =
    some [(12, .app .equiv [.app .tuple [.app .enc [m, r, .app .pk [k2]], .app .dec [n, k2]]])] := by rfl

/-- The hypotheses of `C70_kp_partial` are met. -/
example : ∃ old, Rep (gr g2) 12 old ∧ Kp (gr g2) (Ign (gr g2) fun _ => False) (Ign (gr g2) (· = inst.c)) m k k2 r old
    (.app .equiv [.app .tuple [.app .enc [m, r, .app .pk [k2]], .app .dec [n, k2]]]) :=
  C70_kp_partial (good_wf (l := g2) (by rfl)) (parents_sound g2) (fun _ _ h => h) (base_matched _) (nk := 9) (by rfl) (by decide) g2_run _
    (List.mem_singleton_self _)

/-! ### What is wrong -/

/-- `equiv(tuple(c, tuple(c, n)))`. -/
def g3 : List (List Node) := base ++ [[⟨.const "n", []⟩], [⟨.tuple, [6, 7]⟩], [⟨.tuple, [6, 8]⟩], [⟨.equiv, [9]⟩]]

/-- What an observer computes: are the first two components equal? -/
def test (x : Tm) : Tm := .app .eq [.app .p1 [x], .app .p1 [.app .p2 [x]]]

/-- **C70 (counterexample: copies of the encryption).** From `equiv(tuple(c, tuple(c, n)))` only one of the two copies of
`c` is replaced, whichever order the classes are taken in. Both results are told from the term they are made equal to by
comparing two components, in every model of the symbols in which the encryptions differ. -/
theorem C70_copy_counterexample : WF 11 (gr g3) (rp g3) ∧ Matched (gr g3) inst ∧
    rp g3 10 = .app .equiv [.app .tuple [c, .app .tuple [c, n]]] ∧
    indCca (gr g3) (rp g3) (parentsOf g3) id 12 12 inst = some [(10, .app .equiv [.app .tuple [c, .app .tuple [c', n]]])] ∧
    indCca (gr g3) (rp g3) (parentsOf g3) List.reverse 12 12 inst = some [(10, .app .equiv [.app .tuple [c', .app .tuple [c, n]]])] ∧
    ∀ (D : Type) (M : Mdl D) (ρ : String → D), Std M → c.eval M ρ ≠ c'.eval M ρ →
      (test (.app .tuple [c, .app .tuple [c, n]])).eval M ρ = M.fn .tru [] ∧
      (test (.app .tuple [c, .app .tuple [c', n]])).eval M ρ = M.fn .fls [] ∧
      (test (.app .tuple [c', .app .tuple [c, n]])).eval M ρ = M.fn .fls [] := by
  refine ⟨good_wf (l := g3) (by rfl), base_matched _, rfl, rfl, rfl, ?_⟩
  intro D M ρ h hne
  generalize hc : c = a at hne ⊢
  generalize hc' : c' = b at hne ⊢
  generalize hn : n = d
  simp only [test, Tm.eval, Tm.evals, h.p1, h.p2, h.eqT, h.eqF _ _ hne, h.eqF _ _ (Ne.symm hne), and_self]

/-- `equiv(c)`. -/
def g4 : List (List Node) := base ++ [[⟨.equiv, [6]⟩]]

/-- **C70 (counterexample: a new key that is the randomness).** ENC-KP does not compare the new key with the randomness
of the encryption. -/
theorem C70_kp_randomness_counterexample : WF 8 (gr g4) (rp g4) ∧ Matched (gr g4) inst ∧ isNonce (gr g4) inst.r = true ∧
    encKp (gr g4) (rp g4) (parentsOf g4) id 9 9 inst inst.r = some [(7, .app .equiv [.app .enc [m, r, .app .pk [r]]])] ∧
    ∀ ign₀ ign old new, ¬ Kp (gr g4) ign₀ ign m k r r old new :=
  ⟨good_wf (l := g4) (by rfl), base_matched _, rfl, rfl, fun _ _ _ _ h =>
    h.1.2.2 ⟨3, (good_wf (l := g4) (by rfl)).rep 3 (by decide), (good_wf (l := g4) (by rfl)).rep 3 (by decide)⟩⟩

/-- `equiv(tuple(c, input(nonce k)))`. -/
def g5 : List (List Node) := base ++ [[⟨.input, [1]⟩], [⟨.tuple, [6, 7]⟩], [⟨.equiv, [8]⟩]]

theorem g5_rep {t : Tm} : (Rep (gr g5) 0 t → t = .app (.const "k") []) ∧ (Rep (gr g5) 1 t → t = k) ∧ (Rep (gr g5) 7 t → t = .app .input [k]) := by
  have h0 : ∀ {t}, Rep (gr g5) 0 t → t = .app (.const "k") [] := by
    intro t h
    cases h with
    | node hn hl ha =>
      rename_i n args
      simp [gr, g5, base] at hn
      subst hn
      have : args = [] := List.length_eq_zero_iff.1 hl.symm
      rw [this]
  have h1 : ∀ {t}, Rep (gr g5) 1 t → t = k := by
    intro t h
    cases h with
    | node hn hl ha =>
      rename_i n args
      simp [gr, g5, base] at hn
      subst hn
      obtain ⟨a, rfl⟩ := List.length_eq_one_iff.1 hl.symm
      rw [show a = _ from h0 (ha (0, a) (by simp))]
      rfl
  refine ⟨h0, h1, ?_⟩
  intro h
  cases h with
  | node hn hl ha =>
    rename_i n args
    simp [gr, g5, base] at hn
    subst hn
    obtain ⟨a, rfl⟩ := List.length_eq_one_iff.1 hl.symm
    rw [show a = _ from h1 (ha (1, a) (by simp))]

/-- **C70 (counterexample: inputs).** The argument of `input` is not looked into: an encryption is replaced beside an
input that is given the key. -/
theorem C70_input_counterexample : WF 10 (gr g5) (rp g5) ∧ Matched (gr g5) inst ∧
    indCca (gr g5) (rp g5) (parentsOf g5) id 11 11 inst = some [(9, .app .equiv [.app .tuple [c', .app .input [k]]])] ∧
    ¬ HidesUpTo (gr g5) ⟨true, true⟩ (fun _ => False) k (.app .input [k]) := by
  have hW : WF 10 (gr g5) (rp g5) := good_wf (l := g5) (by rfl)
  refine ⟨hW, base_matched _, rfl, ?_⟩
  rintro ⟨_, u, ⟨i, h1, h2⟩, h3⟩
  have hi : i = 7 := Rep.one hW h1 (hW.rep 7 (by decide))
  subst hi
  rw [g5_rep.2.2 h2] at h3
  generalize e : Tm.app .input [k] = t at h3
  cases h3 with
  | ignored h => exact h
  | dec => cases e
  | pk => cases e
  | app hne ha =>
    injection e with _ e2
    subst e2
    have := ha k (List.mem_singleton_self _)
    cases this with
    | ignored h => exact h
    | app hne _ => exact hne rfl

/-- `equiv(tuple(c, tuple(z, b)))` where `z = zeroes(n)`, `b = enc(z, r2, pk k2)` and `dec(b, k2)` was made equal to `z`. -/
def g6 : List (List Node) := base ++
  [[⟨.const "n", []⟩], [⟨.dec, [13, 10]⟩, ⟨.zeroes, [7]⟩], [⟨.const "k2", []⟩], [⟨.nonce, [9]⟩], [⟨.pk, [10]⟩], [⟨.const "r2", []⟩], [⟨.enc, [8, 12, 11]⟩],
    [⟨.tuple, [8, 13]⟩], [⟨.tuple, [6, 14]⟩], [⟨.equiv, [15]⟩]]

/-- **C70 (counterexample: cycles).** In an e-graph with a cycle, a class looked at while it is itself being searched is
remembered as containing the nonce, and an encryption is not replaced although nothing else contains its key or its
randomness. -/
theorem C70_cycle_counterexample : WF 17 (gr g6) (rp g6) ∧ Matched (gr g6) inst ∧
    indCca (gr g6) (rp g6) (parentsOf g6) id 18 18 inst = some [] ∧
    Reaches (gr g6) [inst.c] [⟨nextKey inst.k, inst.k⟩, ⟨nextRand, inst.r⟩] inst.c 16 ∧ isEquiv (gr g6) 16 = true := by
  refine ⟨good_wf (l := g6) (by rfl), base_matched _, rfl, ?_, rfl⟩
  have leaf : ∀ (next : Node → List Nat) (q i : Nat) (s : String), (∀ n, ∀ j ∈ next n, j ∈ n.ch) → i ≠ q → gr g6 i = [⟨.const s, []⟩] →
      CleanC (gr g6) next (· ∈ [inst.c]) q i := by
    intro next q i s hsub hne hg
    refine .node hne (by rw [hg]; exact List.mem_singleton_self _) (fun j hj => ?_)
    exact (nomatch hsub _ j hj)
  have clean : ∀ (next : Node → List Nat) (q : Nat), (∀ n, ∀ j ∈ next n, j ∈ n.ch) → (q = 1 ∨ q = 3) → CleanC (gr g6) next (· ∈ [inst.c]) q 14 := by
    intro next q hsub hq
    have ne : ∀ i, i ≠ 1 → i ≠ 3 → i ≠ q := by intro i h1 h3; omega
    have c8 : CleanC (gr g6) next (· ∈ [inst.c]) q 8 :=
      .node (n := ⟨.zeroes, [7]⟩) (ne _ (by decide) (by decide)) (by simp [gr, g6, base]) fun j hj => by
        have := hsub _ j hj
        simp at this
        subst this
        exact leaf next q 7 "n" hsub (ne _ (by decide) (by decide)) rfl
    have c10 : CleanC (gr g6) next (· ∈ [inst.c]) q 10 :=
      .node (n := ⟨.nonce, [9]⟩) (ne _ (by decide) (by decide)) (by simp [gr, g6, base]) fun j hj => by
        have := hsub _ j hj
        simp at this
        subst this
        exact leaf next q 9 "k2" hsub (ne _ (by decide) (by decide)) rfl
    have c11 : CleanC (gr g6) next (· ∈ [inst.c]) q 11 :=
      .node (n := ⟨.pk, [10]⟩) (ne _ (by decide) (by decide)) (by simp [gr, g6, base]) fun j hj => by
        have := hsub _ j hj
        simp at this
        subst this
        exact c10
    have c13 : CleanC (gr g6) next (· ∈ [inst.c]) q 13 :=
      .node (n := ⟨.enc, [8, 12, 11]⟩) (ne _ (by decide) (by decide)) (by simp [gr, g6, base]) fun j hj => by
        have := hsub _ j hj
        simp at this
        rcases this with rfl | rfl | rfl
        · exact c8
        · exact leaf next q 12 "r2" hsub (ne _ (by decide) (by decide)) rfl
        · exact c11
    exact .node (n := ⟨.tuple, [8, 13]⟩) (ne _ (by decide) (by decide)) (by simp [gr, g6, base]) fun j hj => by
      have := hsub _ j hj
      simp at this
      rcases this with rfl | rfl
      · exact c8
      · exact c13
  refine .up (i := 15) (.up (i := 6) .here ⟨rfl, ⟨.tuple, [6, 14]⟩, by simp [gr, g6, base], by simp, ?_⟩)
    ⟨rfl, ⟨.equiv, [15]⟩, by simp [gr, g6, base], by simp, ?_⟩
  · intro s hs hne q hq
    simp at hs hq
    have : s = 14 := hs.resolve_left hne
    subst this
    rcases hq with rfl | rfl
    · exact clean _ _ (sub_key _) (.inl rfl)
    · exact clean _ _ sub_rand (.inr rfl)
  · intro s hs hne
    simp at hs
    exact absurd hs hne

/-- The hypotheses of `C70_cca_complete_partial` are met. -/
example : ∃ res, indCca (gr g4) (rp g4) (parentsOf g4) id 9 9 inst = some res ∧ ∃ t, (7, t) ∈ res := by
  have hG : Acyclic (gr g4) id := by
    intro p n hn
    have := gr_lt hn
    simp only [g4, base, List.length_append, List.length_cons, List.length_nil] at this
    have hp : p = 0 ∨ p = 1 ∨ p = 2 ∨ p = 3 ∨ p = 4 ∨ p = 5 ∨ p = 6 ∨ p = 7 := by omega
    rcases hp with rfl | rfl | rfl | rfl | rfl | rfl | rfl | rfl <;> simp [gr, g4, base] at hn <;> subst hn <;> simp
  obtain ⟨res, h1, h2⟩ := C70_cca_complete_partial (good_wf (l := g4) (by rfl)) hG (parents_sound g4) (parents_complete g4) (fun _ _ h => h)
    (fun _ h => h) (base_matched _) (by decide) (by rfl) (by rfl)
    (.node (n := ⟨.const "m", []⟩) (by decide) (by simp [gr, g4, base, inst]) (fun j hj => (nomatch sub_key _ _ j hj)))
    (.node (n := ⟨.const "m", []⟩) (by decide) (by simp [gr, g4, base, inst]) (fun j hj => (nomatch sub_rand _ j hj)))
  refine ⟨res, h1, h2 7 (.up .here ⟨rfl, ⟨.equiv, [6]⟩, by simp [gr, g4, base], by simp [inst], ?_⟩) rfl⟩
  intro s hs hne
  simp at hs
  exact absurd hs hne

end Ex
end Ind
end CV
