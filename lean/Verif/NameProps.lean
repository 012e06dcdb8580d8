import Verif.Container
import Verif.LoadMain
set_option linter.unusedSimpArgs false
/-
Names of function symbols: C42 (generated names) and C59 (symbols of a generated file).
-/
namespace CV
namespace Cont
open Prs

/-! ## Specification -/

/-- What the grammar calls a letter (`LETTER`, a Unicode class of the parser generator): not one of the characters below. -/
def LetterOk (letter : Char → Bool) : Prop := letter '$' = false ∧ letter '_' = false ∧ letter '=' = false

/-- `ident` of grammar.pest:14. -/
def IsIdent (letter : Char → Bool) : Txt → Prop
  | [] => False
  | c :: l => letter c = true ∧ ∀ x ∈ l, letter x = true ∨ x.isAlphanum = true ∨ x = '_' ∨ x = '-' ∨ x = '\''

/-- The symbols that can occur in the file generated from the declarations `l`: the user's symbols are the declared ones, the
evaluated functions come from declared functions or from `empty`, and sorts are identifiers. -/
def Sy.InFile (letter : Char → Bool) (l : List Decl) : Sy → Prop
  | .user n => ∃ s ∈ objNames l ++ extraInit l, n = s.toList
  | .evalFun n => n = "empty".toList ∨ ∃ s ∈ objNames l, n = s.toList
  | .cast s => IsIdent letter s
  | .subterm s _ _ => IsIdent letter s
  | _ => True

/-! ## Lemmas -/

theorem dollar_not_digit (n : Nat) : '$' ∉ Nat.toDigits 10 n := fun h =>
  absurd (Nat.isDigit_of_mem_toDigits (by decide) (by decide) h) (by decide)

theorem toDigits_inj {n m : Nat} (h : Nat.toDigits 10 n = Nat.toDigits 10 m) : n = m := by
  rw [← Nat.ofDigitChars_ten_toDigits (n := n), h, Nat.ofDigitChars_ten_toDigits]

theorem split_unique {a b c d : Txt} (ha : '$' ∉ a) (hc : '$' ∉ c) (h : a ++ '$' :: b = c ++ '$' :: d) : a = c ∧ b = d := by
  induction a generalizing c with
  | nil =>
    cases c with
    | nil => exact ⟨rfl, (List.cons.inj h).2⟩
    | cons x c =>
      have := (List.cons.inj h).1
      exact absurd (List.mem_cons.2 (.inl this)) hc
  | cons x a ih =>
    cases c with
    | nil =>
      have := (List.cons.inj h).1
      exact absurd (List.mem_cons.2 (.inl this.symm)) ha
    | cons y c =>
      obtain ⟨h1, h2⟩ := List.cons.inj h
      obtain ⟨h3, h4⟩ := ih (fun k => ha (.tail _ k)) (fun k => hc (.tail _ k)) h2
      exact ⟨by rw [h1, h3], h4⟩

theorem freeName_inj {i j : Nat} {a b : Txt} (h : freeName i a = freeName j b) : i = j ∧ a = b := by
  have h' : Nat.toDigits 10 i ++ '$' :: a = Nat.toDigits 10 j ++ '$' :: b := (List.cons.inj h).2
  obtain ⟨h1, h2⟩ := split_unique (dollar_not_digit i) (dollar_not_digit j) h'
  exact ⟨toDigits_inj h1, h2⟩

theorem ident_dollar {letter} (hl : LetterOk letter) {n : Txt} (h : IsIdent letter n) : '$' ∉ n := by
  cases n with
  | nil => exact h.elim
  | cons c l =>
    intro hm
    rcases List.mem_cons.1 hm with rfl | hm
    · exact absurd (hl.1.symm.trans h.1) (by decide)
    · rcases h.2 _ hm with e | e | e | e | e
      · rw [hl.1] at e; exact absurd e (by decide)
      all_goals exact absurd e (by decide)

theorem ident_head {letter} (hl : LetterOk letter) {n : Txt} (h : IsIdent letter n) : n.head? ≠ some '_' ∧ n.head? ≠ some '=' := by
  cases n with
  | nil => exact h.elim
  | cons c l =>
    constructor <;> (intro e; simp only [List.head?_cons, Option.some.injEq] at e; subst e)
    · exact absurd (hl.2.1.symm.trans h.1) (by decide)
    · exact absurd (hl.2.2.symm.trans h.1) (by decide)

theorem nodup_of_getElem?_ne {α : Type} {l : List α} (h : ∀ i j, i < j → j < l.length → l[i]? ≠ l[j]?) : l.Nodup := by
  rw [List.Nodup, List.pairwise_iff_getElem]
  intro i j hi hj hij e
  exact h i j hij hj (by rw [List.getElem?_eq_getElem hi, List.getElem?_eq_getElem hj, e])

theorem getElem?_ne_of_nodup {α : Type} {l : List α} (h : l.Nodup) {i j : Nat} (hij : i < j) (hj : j < l.length) : l[i]? ≠ l[j]? := by
  rw [List.Nodup, List.pairwise_iff_getElem] at h
  rw [List.getElem?_eq_getElem (Nat.lt_trans hij hj), List.getElem?_eq_getElem hj]
  exact fun e => h i j (Nat.lt_trans hij hj) hj hij (Option.some.inj e)

/-! ## C42: generated names -/

theorem findFrees_get (c : Nat) (l : List Txt) (k : Nat) (hc : c < 65536) :
    (findFrees c l)[k]? = (l[k]?).map (freeName ((c + k) % 65536)) := by
  induction l generalizing c k with
  | nil => simp [findFrees]
  | cons n l ih =>
    cases k with
    | zero => simp [findFrees, findFree, Nat.mod_eq_of_lt hc]
    | succ k =>
      simp only [findFrees, findFree, List.getElem?_cons_succ]
      rw [ih _ _ (Nat.mod_lt _ (by decide))]
      congr 2
      omega

theorem findFrees_length (c : Nat) (l : List Txt) : (findFrees c l).length = l.length := by
  induction l generalizing c with
  | nil => rfl
  | cons n l ih => simp [findFrees, ih]

/-- **C42**, what holds. Missing: more than 65536 calls in one process. Whatever prefixes are asked for and whatever the state
of the counter, up to 65536 consecutive calls give pairwise different names. -/
theorem C42_distinct_partial (c : Nat) (hc : c < 65536) (l : List Txt) (hl : l.length ≤ 65536) : (findFrees c l).Nodup := by
  refine nodup_of_getElem?_ne fun i j hij hj he => ?_
  rw [findFrees_get c l i hc, findFrees_get c l j hc] at he
  rw [findFrees_length] at hj
  rw [List.getElem?_eq_getElem (Nat.lt_trans hij hj), List.getElem?_eq_getElem hj] at he
  simp only [Option.map_some, Option.some.injEq] at he
  have := (freeName_inj he).1
  omega

example : findFrees 65535 ["sk_".toList, "sk_".toList] = ["_65535$sk_".toList, "_0$sk_".toList] := by rfl

/-- **C42** fails beyond: 65536 calls after any call, the same prefix gives the same name again. -/
theorem C42_wraps (c : Nat) (hc : c < 65536) (n : Txt) (l : List Txt) (hl : l.length = 65535) :
    ¬ (findFrees c (n :: l ++ [n])).Nodup := by
  intro h
  refine getElem?_ne_of_nodup h (i := 0) (j := 65536) (by decide) (by rw [findFrees_length]; simp [hl]) ?_
  rw [findFrees_get _ _ _ hc, findFrees_get _ _ _ hc]
  have h1 : (n :: l ++ [n])[0]? = some n := rfl
  have h2 : (n :: l ++ [n])[65536]? = some n := by
    rw [show 65536 = (n :: l).length by simp [hl]]
    exact List.getElem?_concat_length
  rw [h1, h2]
  have e : (c + 0) % 65536 = (c + 65536) % 65536 := by omega
  rw [e]

/-- **C42**: a generated name is not the name of anything a file can declare, nor of a built-in symbol, for any prefix. -/
theorem C42_fresh (letter : Char → Bool) (hl : LetterOk letter) (c : Nat) (base : Txt) (n : Txt) (hn : IsIdent letter n) :
    (findFree c base).1 ≠ n ∧ ∀ k ∈ (builtinFunctions.map (·.1)) ++ keywords, (findFree c base).1 ≠ k.toList := by
  constructor
  · intro e
    exact (ident_head hl hn).1 (by rw [← e]; rfl)
  · intro k hk e
    have h : k.toList.head? = some '_' := by rw [← e]; rfl
    exact absurd h ((by decide +kernel : ∀ k ∈ (builtinFunctions.map (·.1)) ++ keywords, k.toList.head? ≠ some '_') k hk)

/-- An ASCII notion of letter, for the examples. -/
def asciiLetter (c : Char) : Bool := c.isAlpha

example : LetterOk asciiLetter := ⟨rfl, rfl, rfl⟩
example : IsIdent asciiLetter "k1".toList := by
  exact ⟨by decide, by decide⟩

/-- **C42**: the test whether a name is available answers the opposite: it is `true` exactly for the names of the objects
already there. -/
theorem C42_available_inverted (functions sorts steps cells : Heap Txt) (n : Txt) :
    isNameAvailable functions sorts steps cells n = true ↔
      ∃ h ∈ [functions, sorts, steps, cells], ∃ p, read h p = some n := by
  rw [isNameAvailable, List.contains_iff_mem]
  simp only [nameSet, List.mem_flatMap, List.mem_filterMap, id_eq, exists_eq_right]
  constructor
  · rintro ⟨h, hm, hn⟩
    obtain ⟨p, hp, e⟩ := List.mem_iff_getElem.1 hn
    exact ⟨h, hm, p, by simp [read, content, List.getElem?_eq_getElem hp, e]⟩
  · rintro ⟨h, hm, p, hp⟩
    refine ⟨h, hm, ?_⟩
    simp only [read, content] at hp
    cases e : h[p]? with
    | none => rw [e] at hp; simp at hp
    | some x =>
      rw [e] at hp
      simp only [Option.join_some] at hp
      subst hp
      exact List.mem_of_getElem? e

example : isNameAvailable [some "h".toList, none] [] [] [] "h".toList = true := by decide
example : isNameAvailable [some "h".toList, none] [] [] [] "new".toList = false := by decide

/-! ## C59: the symbols of a file -/

/-- The symbols with a fixed name without `$`. -/
def plainConsts : List Sy :=
  [.bool .and, .bool .or, .bool .not, .bool .implies, .bool .tru, .bool .fls, .bool .eq, .ite, .empty, .pred, .lt, .gt, .leq,
    .happens, .cond, .msg, .exec, .input, .evalMsg, .evalCond]

/-- The symbols with a fixed name with `$`. -/
def taConsts : List Sy :=
  [.ta .and, .ta .or, .ta .not, .ta .implies, .ta .tru, .ta .fls, .ta .eq, .taIff, .taIte]

/-- The rest, before and after the first `$`. -/
def Sy.parts : Sy → Option (Txt × Txt)
  | .cast s => some ("cast".toList, s ++ "$name".toList)
  | .quant k id => some ("ta".toList, ((qName k).toList.drop 3) ++ '$' :: Nat.toDigits 10 id)
  | .evalFun n => some ("eval".toList, n)
  | .gen id base => some ('_' :: Nat.toDigits 10 id, base)
  | .subterm s id base => some (s, freeName id base)
  | .ta c => some ("ta".toList, (taName c).toList.drop 3)
  | .taIff => some ("ta".toList, "iff".toList)
  | .taIte => some ("ta".toList, "ite".toList)
  | _ => none

theorem parts_name {a : Sy} {x : Txt × Txt} (h : a.parts = some x) : a.name = x.1 ++ '$' :: x.2 := by
  cases a <;> simp only [Sy.parts, Option.some.injEq, reduceCtorEq] at h <;> subst h
  case ta c => cases c <;> rfl
  case quant k id => cases k <;> rfl
  all_goals rfl

theorem sy_cases (a : Sy) : (∃ n, a = .user n) ∨ a ∈ plainConsts ∨ ∃ x, a.parts = some x := by
  cases a with
  | bool c => cases c <;> (right; left; simp [plainConsts])
  | user n => exact .inl ⟨n, rfl⟩
  | _ => first | (right; left; simp [plainConsts]; done) | exact .inr (.inr ⟨_, rfl⟩)

theorem parts_pre {letter} (hl : LetterOk letter) {l} {a : Sy} (ha : a.InFile letter l) {x : Txt × Txt} (h : a.parts = some x) :
    '$' ∉ x.1 := by
  cases a <;> simp only [Sy.parts, Option.some.injEq, reduceCtorEq] at h <;> subst h
  case gen id base =>
    intro hm
    rcases List.mem_cons.1 hm with e | hm
    · exact absurd e (by decide)
    · exact dollar_not_digit id hm
  case subterm s id base => exact ident_dollar hl ha
  all_goals (show '$' ∉ String.toList _; decide)

/-- The declared names are identifiers. -/
def Idents (letter : Char → Bool) (l : List Decl) : Prop := ∀ s ∈ objNames l ++ extraInit l, IsIdent letter s.toList

theorem evalFun_ident {letter} {l : List Decl} (hi : Idents letter l) (hem : IsIdent letter "empty".toList) {n : Txt}
    (h : (Sy.evalFun n).InFile letter l) : IsIdent letter n := by
  rcases h with rfl | ⟨s, hs, rfl⟩
  · exact hem
  · exact hi s (List.mem_append_left _ hs)

theorem ta_inj : ∀ c d : Conn, (taName c).toList.drop 3 = (taName d).toList.drop 3 → c = d := by
  intro c d; cases c <;> cases d <;> simp [taName]

theorem q_inj : ∀ c d : QKind, (qName c).toList.drop 3 = (qName d).toList.drop 3 → c = d := by
  intro c d; cases c <;> cases d <;> simp [qName]

theorem ta_post (c : Conn) : '$' ∉ (taName c).toList.drop 3 ∧ ((taName c).toList.drop 3).head? ≠ some '_' := by
  cases c <;> decide

theorem q_post (c : QKind) : '$' ∉ (qName c).toList.drop 3 := by cases c <;> decide

theorem q_head (c : QKind) (t : Txt) : ((qName c).toList.drop 3 ++ t).head? ≠ some '_' := by
  cases c <;> simp [qName]

/-- A symbol other than a generated one has a second part that does not start like a generated name. -/
theorem post_head {letter} (hl : LetterOk letter) {l} (hi : Idents letter l) (hem : IsIdent letter "empty".toList) {a : Sy}
    (ha : a.InFile letter l) {x : Txt × Txt} (h : a.parts = some x) (h1 : ∀ s i b, a ≠ .subterm s i b) (h2 : ∀ i b, a ≠ .gen i b) :
    x.2.head? ≠ some '_' := by
  cases a <;> simp only [Sy.parts, Option.some.injEq, reduceCtorEq] at h <;> subst h
  case gen i b => exact absurd rfl (h2 i b)
  case subterm s i b => exact absurd rfl (h1 s i b)
  case ta c => exact (ta_post c).2
  case quant k id => exact q_head k _
  case evalFun n => exact (ident_head hl (evalFun_ident hi hem ha)).1
  case cast s =>
    have := (ident_head hl (n := s) ha).1
    cases s with
    | nil => exact absurd ha (by simp [Sy.InFile, IsIdent])
    | cons c s => simpa using this
  all_goals decide

/-- A symbol other than a subterm predicate and a generated one has one of three first parts. -/
theorem pre_cases {a : Sy} {x : Txt × Txt} (h : a.parts = some x) (h1 : ∀ s i b, a ≠ .subterm s i b) (h2 : ∀ i b, a ≠ .gen i b) :
    x.1.head? ≠ some '_' := by
  cases a <;> simp only [Sy.parts, Option.some.injEq, reduceCtorEq] at h <;> subst h
  case gen i b => exact absurd rfl (h2 i b)
  case subterm s i b => exact absurd rfl (h1 s i b)
  all_goals (show (String.toList _).head? ≠ some '_'; decide)

theorem parts_inj {letter} (hl : LetterOk letter) {l} (hi : Idents letter l) (hem : IsIdent letter "empty".toList) {a b : Sy}
    (ha : a.InFile letter l) (hb : b.InFile letter l) {x : Txt × Txt} (h : a.parts = some x) (h' : b.parts = some x) : a = b := by
  -- subterm predicates and generated symbols
  by_cases a1 : ∃ s i t, a = .subterm s i t
  · obtain ⟨s, i, t, rfl⟩ := a1
    by_cases b1 : ∃ s i t, b = .subterm s i t
    · obtain ⟨s', i', t', rfl⟩ := b1
      simp only [Sy.parts, Option.some.injEq] at h h'
      subst h
      obtain ⟨e1, e2⟩ := Prod.mk.inj h'
      obtain ⟨e3, e4⟩ := freeName_inj e2
      rw [e1, e3, e4]
    · by_cases b2 : ∃ i t, b = .gen i t
      · obtain ⟨i', t', rfl⟩ := b2
        simp only [Sy.parts, Option.some.injEq] at h h'
        subst h
        obtain ⟨e1, e2⟩ := Prod.mk.inj h'
        exact absurd (by rw [← e1]; rfl) (ident_head hl (n := s) ha).1
      · have := post_head hl hi hem hb h' (fun s i t e => b1 ⟨s, i, t, e⟩) (fun i t e => b2 ⟨i, t, e⟩)
        simp only [Sy.parts, Option.some.injEq] at h
        subst h
        exact absurd rfl this
  · by_cases a2 : ∃ i t, a = .gen i t
    · obtain ⟨i, t, rfl⟩ := a2
      by_cases b1 : ∃ s i t, b = .subterm s i t
      · obtain ⟨s', i', t', rfl⟩ := b1
        simp only [Sy.parts, Option.some.injEq] at h h'
        subst h
        obtain ⟨e1, e2⟩ := Prod.mk.inj h'
        exact absurd (by rw [e1]; rfl) (ident_head hl (n := s') hb).1
      · by_cases b2 : ∃ i t, b = .gen i t
        · obtain ⟨i', t', rfl⟩ := b2
          simp only [Sy.parts, Option.some.injEq] at h h'
          subst h
          obtain ⟨e1, e2⟩ := Prod.mk.inj h'
          rw [toDigits_inj (List.cons.inj e1).2, e2]
        · have := pre_cases h' (fun s i t e => b1 ⟨s, i, t, e⟩) (fun i t e => b2 ⟨i, t, e⟩)
          simp only [Sy.parts, Option.some.injEq] at h
          subst h
          exact absurd rfl this
    · by_cases b1 : ∃ s i t, b = .subterm s i t
      · obtain ⟨s', i', t', rfl⟩ := b1
        have := post_head hl hi hem ha h (fun s i t e => a1 ⟨s, i, t, e⟩) (fun i t e => a2 ⟨i, t, e⟩)
        simp only [Sy.parts, Option.some.injEq] at h'
        subst h'
        exact absurd rfl this
      · by_cases b2 : ∃ i t, b = .gen i t
        · obtain ⟨i', t', rfl⟩ := b2
          have := pre_cases h (fun s i t e => a1 ⟨s, i, t, e⟩) (fun i t e => a2 ⟨i, t, e⟩)
          simp only [Sy.parts, Option.some.injEq] at h'
          subst h'
          exact absurd rfl this
        · -- the rest
          have dq : ∀ (k : QKind) (i : Nat) (t : Txt), '$' ∉ t → (qName k).toList.drop 3 ++ '$' :: Nat.toDigits 10 i ≠ t :=
            fun k i t ht e => ht (e ▸ by simp)
          cases a <;> simp only [Sy.parts, Option.some.injEq, reduceCtorEq] at h <;> subst h <;>
            cases b <;> simp only [Sy.parts, Option.some.injEq, reduceCtorEq, Prod.mk.injEq] at h'
          case gen.gen => exact absurd ⟨_, _, rfl⟩ a2
          case subterm.subterm => exact absurd ⟨_, _, _, rfl⟩ a1
          case ta.ta c d => rw [ta_inj _ _ h'.2]
          case quant.quant k i k' i' =>
            obtain ⟨e1, e2⟩ := split_unique (q_post _) (q_post _) h'.2
            rw [q_inj _ _ e1, toDigits_inj e2]
          case cast.cast s s' => rw [List.append_cancel_right h'.2]
          case evalFun.evalFun n n' => rw [h'.2]
          case ta.quant c k i => exact absurd h'.2 (dq _ _ _ (ta_post c).1)
          case quant.ta k i c => exact absurd h'.2.symm (dq _ _ _ (ta_post c).1)
          case taIff.quant k i => exact absurd h'.2 (dq _ _ _ (by decide))
          case quant.taIff k i => exact absurd h'.2.symm (dq _ _ _ (by decide))
          case taIte.quant k i => exact absurd h'.2 (dq _ _ _ (by decide))
          case quant.taIte k i => exact absurd h'.2.symm (dq _ _ _ (by decide))
          case ta.taIff c => exact absurd h'.2.symm (by cases c <;> decide)
          case ta.taIte c => exact absurd h'.2.symm (by cases c <;> decide)
          case taIff.ta c => exact absurd h'.2 (by cases c <;> decide)
          case taIte.ta c => exact absurd h'.2 (by cases c <;> decide)
          all_goals first | rfl | exact absurd h'.1 (by decide) | exact absurd h'.2 (by decide) | exact absurd ⟨_, _, rfl⟩ a2 |
            exact absurd ⟨_, _, _, rfl⟩ a1 | exact absurd ⟨_, _, rfl⟩ b2 | exact absurd ⟨_, _, _, rfl⟩ b1

theorem plain_dollar : ∀ a ∈ plainConsts, '$' ∉ a.name := by decide

theorem plain_inj : ∀ a ∈ plainConsts, ∀ b ∈ plainConsts, a.name = b.name → a = b := by decide

/-- The fixed names a file cannot declare. -/
theorem plain_reserved : ∀ a ∈ plainConsts, a = .evalMsg ∨ a = .evalCond ∨ a.name.head? = some '=' ∨
    String.ofList a.name ∈ (builtinFunctions.map (·.1)) ++ keywords := by decide +kernel

theorem user_plain {letter} (hl : LetterOk letter) {l : List Decl} {sh : Bool} (hf : FileOk (env0 sh) l) (hi : Idents letter l) {n : Txt}
    (hn : (Sy.user n).InFile letter l) (h1 : n ≠ "evaluate_msg".toList) (h2 : n ≠ "evaluate_cond".toList) {b : Sy}
    (hb : b ∈ plainConsts) : n ≠ b.name := by
  obtain ⟨s, hs, rfl⟩ := hn
  intro e
  rcases plain_reserved b hb with rfl | rfl | k | k
  · exact h1 e
  · exact h2 e
  · exact (ident_head hl (hi s hs)).2 (e ▸ k)
  · rw [← e] at k
    exact hf.objs.2 s hs (by simpa [env0] using k)

/-- **C59**, what holds. Missing: files that declare a symbol called `evaluate_msg` or `evaluate_cond`. In the file generated
from accepted declarations, different symbols have different names: those of the user, the built-in ones, the evaluated copies
of the user's functions, the symbolic quantifiers, and the generated ones as long as their identifiers or prefixes differ. -/
theorem C59_names_partial (letter : Char → Bool) (hl : LetterOk letter) (hem : IsIdent letter "empty".toList) (sh : Bool) (l : List Decl)
    (hf : FileOk (env0 sh) l) (hi : Idents letter l) (h1 : "evaluate_msg" ∉ objNames l) (h2 : "evaluate_cond" ∉ objNames l)
    (a b : Sy) (ha : a.InFile letter l) (hb : b.InFile letter l) (h : a.name = b.name) : a = b := by
  have hu : ∀ n, (Sy.user n).InFile letter l → '$' ∉ n ∧ n ≠ "evaluate_msg".toList ∧ n ≠ "evaluate_cond".toList := by
    rintro n ⟨s, hs, rfl⟩
    refine ⟨ident_dollar hl (hi s hs), fun e => ?_, fun e => ?_⟩
    all_goals
      rw [String.toList_inj] at e
      subst e
      rcases List.mem_append.1 hs with hs | hs
      · first | exact h1 hs | exact h2 hs
      · simp only [extraInit] at hs
        split at hs
        · cases hs
        · simp at hs
  have hp : ∀ {c : Sy} {x}, c.parts = some x → '$' ∈ c.name := fun h => by rw [parts_name h]; simp
  rcases sy_cases a with ⟨n, rfl⟩ | ka | ⟨x, kx⟩ <;> rcases sy_cases b with ⟨m, rfl⟩ | kb | ⟨y, ky⟩
  · exact congrArg Sy.user h
  · exact absurd h (user_plain hl hf hi ha (hu n ha).2.1 (hu n ha).2.2 kb)
  · exact absurd (show '$' ∈ (Sy.user n).name from h ▸ hp ky) (hu n ha).1
  · exact absurd h.symm (user_plain hl hf hi hb (hu m hb).2.1 (hu m hb).2.2 ka)
  · exact plain_inj a ka b kb h
  · exact absurd (h ▸ hp ky) (plain_dollar a ka)
  · exact absurd (show '$' ∈ (Sy.user m).name from h ▸ hp kx) (hu m hb).1
  · exact absurd (h.symm ▸ hp kx) (plain_dollar b kb)
  · rw [parts_name kx, parts_name ky] at h
    obtain ⟨e1, e2⟩ := split_unique (parts_pre hl ha kx) (parts_pre hl hb ky) h
    have : x = y := Prod.ext e1 e2
    subst this
    exact parts_inj hl hi hem ha hb kx ky

/-- A file with a function, a name, a cell and a query. -/
def exDecls : List Decl :=
  [.type "session", .func "h" ["Message", "Message"] "Message", .func "k" ["session"] "Name", .cell "mem" ["session"] "Message",
    .query (.app "true" [])]

example : FileOk (env0 true) exDecls ∧ Idents asciiLetter exDecls ∧ "evaluate_msg" ∉ objNames exDecls ∧
    (Sy.user "h".toList).InFile asciiLetter exDecls ∧ (Sy.evalFun "h".toList).InFile asciiLetter exDecls := by
  refine ⟨?_, ?_, by decide, ⟨"h", by decide, rfl⟩, .inr ⟨"h", by decide, rfl⟩⟩
  · have h : ((declareSorts exDecls (env0 true)).bind (fetchAll exDecls)).isOk = true := by decide +kernel
    obtain ⟨⟨F, q⟩, hx⟩ := Prs.Out.isOk_iff.1 h
    exact ((C24_accepted_iff _ _ F q).1 hx).1
  · have e : objNames exDecls ++ extraInit exDecls = ["h", "k", "mem", "init"] := by decide +kernel
    intro s hs
    rw [e] at hs
    simp only [List.mem_cons, List.not_mem_nil, or_false] at hs
    rcases hs with rfl | rfl | rfl | rfl <;> (refine ⟨by decide, fun x hx => ?_⟩; revert x; decide)

/-- **C59** fails otherwise: a function called `evaluate_msg` is accepted, and has the name of the symbol that evaluates
messages. -/
theorem C59_evaluate_clash : ∃ l : List Decl, FileOk (env0 true) l ∧ (Sy.user "evaluate_msg".toList).InFile asciiLetter l ∧
    (Sy.user "evaluate_msg".toList).name = Sy.evalMsg.name := by
  refine ⟨[.func "evaluate_msg" ["Message"] "Message", .query (.app "true" [])], ?_, ⟨"evaluate_msg", by decide, rfl⟩, rfl⟩
  have h : ((declareSorts [.func "evaluate_msg" ["Message"] "Message", .query (.app "true" [])] (env0 true)).bind
      (fetchAll [.func "evaluate_msg" ["Message"] "Message", .query (.app "true" [])])).isOk = true := by decide +kernel
  obtain ⟨⟨F, q⟩, hx⟩ := Prs.Out.isOk_iff.1 h
  exact ((C24_accepted_iff _ _ F q).1 hx).1

end Cont
end CV
