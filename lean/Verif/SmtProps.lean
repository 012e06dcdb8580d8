import Verif.Smt
import Verif.SmtSpec
import Mathlib.Data.List.Forall2
set_option linter.unusedSimpArgs false
set_option linter.unusedVariables false
/-
C14, C15: the emitted text, read back as s-expressions, means what the problem means.
-/
namespace CV
namespace SmtM
open SmtS (Tok SExp lex parse read Interp Env sem sems appS quantS binder flush ws cmdSem Typed DataSem
  SubtermSem chainEq noEnv atomOf consOf sortOf conssOf)
open Classical

variable {F D : Type}

/-! ### Lexing -/

/-- Characters of a symbol. -/
def nameChar (c : Char) : Bool :=
  !(c = '(' || c = ')' || SmtS.ws c || c = ';' || c = '|' || c = '"')

/-- A legal symbol. -/
def NameOK (n : Txt) : Prop := n ≠ [] ∧ ∀ c ∈ n, nameChar c = true

instance (n : Txt) : Decidable (NameOK n) := by unfold NameOK; infer_instance

theorem lex_chars : ∀ (n cur rest : Txt), (∀ c ∈ n, nameChar c = true) →
    lex (some cur) (n ++ rest) = lex (some (cur ++ n)) rest
  | [], cur, rest, _ => by simp
  | c :: n, cur, rest, h => by
    have hc := h c (by simp)
    have ih := lex_chars n (cur ++ [c]) rest (fun c hc => h c (by simp [hc]))
    simp only [nameChar, Bool.not_eq_true', Bool.or_eq_false_iff, decide_eq_false_iff_not] at hc
    obtain ⟨⟨⟨⟨⟨h1, h2⟩, h3⟩, h4⟩, h5⟩, h6⟩ := hc
    simp only [List.cons_append, lex, h1, h2, h3, h4, h5, h6, if_false, or_self, Bool.false_eq_true]
    rw [ih]; simp

/-- The text starts with a separator. -/
def Delim (rest : Txt) : Prop := ∀ cur, lex (some cur) rest = flush cur ++ lex (some []) rest

theorem delim_nil : Delim [] := fun cur => by simp [lex, flush]
theorem delim_lp (s : Txt) : Delim ('(' :: s) := fun cur => by simp [lex, flush]
theorem delim_rp (s : Txt) : Delim (')' :: s) := fun cur => by simp [lex, flush]
theorem delim_sp (s : Txt) : Delim (' ' :: s) := fun cur => by simp [lex, flush, ws]
theorem delim_nl (s : Txt) : Delim ('\n' :: s) := fun cur => by simp [lex, flush, ws]
theorem delim_tab (s : Txt) : Delim ('\t' :: s) := fun cur => by simp [lex, flush, ws]

theorem lex_lp (s : Txt) : lex (some []) ('(' :: s) = .lp :: lex (some []) s := by simp [lex, flush]
theorem lex_rp (s : Txt) : lex (some []) (')' :: s) = .rp :: lex (some []) s := by simp [lex, flush]
theorem lex_sp (s : Txt) : lex (some []) (' ' :: s) = lex (some []) s := by simp [lex, flush, ws]
theorem lex_nl (s : Txt) : lex (some []) ('\n' :: s) = lex (some []) s := by simp [lex, flush, ws]
theorem lex_tab (s : Txt) : lex (some []) ('\t' :: s) = lex (some []) s := by simp [lex, flush, ws]
theorem lex_semi (s : Txt) : lex (some []) (';' :: s) = lex none s := by simp [lex, flush, ws]

theorem lex_name {n rest : Txt} (hn : NameOK n) (hd : Delim rest) :
    lex (some []) (n ++ rest) = .atom n :: lex (some []) rest := by
  rw [lex_chars n [] rest hn.2, List.nil_append, hd]
  simp [flush, hn.1]

theorem lex_comment : ∀ (s rest : Txt), '\n' ∉ s → lex none (s ++ '\n' :: rest) = lex (some []) rest
  | [], rest, _ => by simp [lex]
  | c :: s, rest, h => by
    simp only [List.mem_cons, not_or] at h
    simp only [List.cons_append, lex]
    rw [if_neg (fun e => h.1 e.symm)]
    exact lex_comment s rest h.2

/-- The text reads as the tokens, before any separator. -/
def LexTo (t : Txt) (ts : List Tok) : Prop :=
  ∀ rest, Delim rest → lex (some []) (t ++ rest) = ts ++ lex (some []) rest

theorem LexTo.name {n : Txt} (h : NameOK n) : LexTo n [.atom n] := fun rest hd => lex_name h hd

mutual
/-- Tokens of an s-expression. -/
def toks : SExp → List Tok
  | .atom a => [.atom a]
  | .list l => .lp :: tokss l ++ [.rp]
def tokss : List SExp → List Tok
  | [] => []
  | a :: as => toks a ++ tokss as
end

mutual
theorem parse_toks : ∀ (e : SExp) (ts : List Tok) (cur : List SExp) (st : List (List SExp)),
    parse (toks e ++ ts) cur st = parse ts (e :: cur) st
  | .atom a, ts, cur, st => by simp [toks, parse]
  | .list l, ts, cur, st => by
    simp only [toks, List.cons_append, List.append_assoc, parse]
    rw [parse_tokss l]
    simp [parse]
theorem parse_tokss : ∀ (l : List SExp) (ts : List Tok) (cur : List SExp) (st : List (List SExp)),
    parse (tokss l ++ ts) cur st = parse ts (l.reverse ++ cur) st
  | [], ts, cur, st => by simp [tokss]
  | a :: as, ts, cur, st => by
    simp only [tokss, List.append_assoc]
    rw [parse_toks a, parse_tokss as]; simp
end

theorem tokss_append (a b : List SExp) : tokss (a ++ b) = tokss a ++ tokss b := by
  induction a with
  | nil => simp [tokss]
  | cons x a ih => simp [tokss, ih]

theorem read_of_lex {t : Txt} {l : List SExp} (h : lex (some []) t = tokss l) : read t = some l := by
  have := parse_tokss l [] [] []
  simp only [List.append_nil] at this
  simp [SmtS.read, h, this, parse]

theorem LexTo.read {t : Txt} {e : SExp} (h : LexTo t (toks e)) : read t = some [e] := by
  apply read_of_lex
  have := h [] delim_nil
  simp only [List.append_nil, lex, flush] at this
  simpa [tokss] using this

/-! ### The s-expression of an SMT formula -/

/-- Name of a variable. -/
def vn (K : SymInfo F) (v : Var) : Txt := (K.varName v).getD []

/-- Words with a meaning in the language of terms. -/
def reserved : List Txt :=
  ["forall", "exists", "and", "or", "=", "distinct", "not", "=>", "ite", "subterm", "true",
    "false"].map String.toList

/-- Symbols printed by name. -/
def SKind.isFn : SKind → Bool
  | .fn | .evaluate | .vampSub => true
  | _ => false

/-- Names do not clash with the language, with variables, or with each other. -/
structure Names (K : SymInfo F) : Prop where
  ok : ∀ f, (K.kind f).isFn → NameOK (K.name f)
  res : ∀ f, (K.kind f).isFn → K.name f ∉ reserved
  var : ∀ f v, (K.kind f).isFn → K.name f ≠ vn K v
  sortOK : ∀ s, NameOK (K.sortName s)
  inj : ∀ f g, (K.kind f).isFn → (K.kind g).isFn → K.name f = K.name g → f = g
  sortInj : ∀ s t, K.sortName s = K.sortName t → s = t

theorem vn_eq {K : SymInfo F} (hK : Names K) (v : Var) :
    ∃ c, K.varName v = some (c :: 'X' :: Nat.toDigits 10 v.id) ∧ nameChar c = true := by
  have h := hK.sortOK v.sort
  cases hs : K.sortName v.sort with
  | nil => exact absurd hs h.1
  | cons c r =>
    refine ⟨c, by simp [SymInfo.varName, hs], h.2 c (by simp [hs])⟩

theorem varName_some {K : SymInfo F} (hK : Names K) (v : Var) : K.varName v = some (vn K v) := by
  obtain ⟨c, hc, _⟩ := vn_eq hK v
  simp [vn, hc]

theorem digit_nameChar {c : Char} (h : c.isDigit = true) : nameChar c = true := by
  have : c ≠ '(' ∧ c ≠ ')' ∧ c ≠ ' ' ∧ c ≠ '\n' ∧ c ≠ '\t' ∧ c ≠ '\r' ∧ c ≠ ';' ∧ c ≠ '|' ∧ c ≠ '"' := by
    refine ⟨?_, ?_, ?_, ?_, ?_, ?_, ?_, ?_, ?_⟩ <;> (rintro rfl; exact absurd h (by decide))
  obtain ⟨h1, h2, h3, h4, h5, h6, h7, h8, h9⟩ := this
  simp [nameChar, ws, h1, h2, h3, h4, h5, h6, h7, h8, h9]

theorem vn_ok {K : SymInfo F} (hK : Names K) (v : Var) : NameOK (vn K v) := by
  obtain ⟨c, hc, hn⟩ := vn_eq hK v
  simp only [vn, hc, Option.getD_some]
  refine ⟨by simp, ?_⟩
  intro x hx
  simp only [List.mem_cons] at hx
  rcases hx with rfl | rfl | hx
  · exact hn
  · decide
  · exact digit_nameChar (Nat.isDigit_of_mem_toDigits (by decide) (by decide) hx)

theorem vn_inj {K : SymInfo F} (hK : Names K) {v w : Var} (h : vn K v = vn K w) : v.id = w.id := by
  obtain ⟨c, hc, _⟩ := vn_eq hK v
  obtain ⟨c', hc', _⟩ := vn_eq hK w
  simp only [vn, hc, hc', Option.getD_some, List.cons.injEq, true_and] at h
  rw [← Nat.ofDigitChars_ten_toDigits (n := v.id), h.2, Nat.ofDigitChars_ten_toDigits]

theorem vn_ne_true {K : SymInfo F} (hK : Names K) (v : Var) : vn K v ≠ "true".toList := by
  obtain ⟨c, hc, _⟩ := vn_eq hK v
  intro h; simp [vn, hc] at h
theorem vn_ne_false {K : SymInfo F} (hK : Names K) (v : Var) : vn K v ≠ "false".toList := by
  obtain ⟨c, hc, _⟩ := vn_eq hK v
  intro h; simp [vn, hc] at h

/-- `(x s)`. -/
def sxVar (K : SymInfo F) (v : Var) : SExp := .list [.atom (vn K v), .atom (K.sortName v.sort)]

mutual
/-- The s-expression the text of an SMT formula reads as. -/
def sx (K : SymInfo F) (ev : Bool) : SmtFm F → SExp
  | .var v => .atom (vn K v)
  | .fn f args =>
    if ev && K.kind f == .evaluate then (sxs K ev args).head?.getD (.list [])
    else if args.isEmpty then .atom (K.name f)
    else .list (.atom (K.name f) :: sxs K ev args)
  | .all vs b => if vs.isEmpty then sx K ev b
      else .list [.atom "forall".toList, .list (vs.map (sxVar K)), sx K ev b]
  | .ex vs b => if vs.isEmpty then sx K ev b
      else .list [.atom "exists".toList, .list (vs.map (sxVar K)), sx K ev b]
  | .tru => .atom "true".toList
  | .fls => .atom "false".toList
  | .and l => if l.isEmpty then .atom "true".toList else .list (.atom "and".toList :: sxs K ev l)
  | .or l => if l.isEmpty then .atom "false".toList else .list (.atom "or".toList :: sxs K ev l)
  | .eq l => if l.length ≤ 1 then .atom "true".toList else .list (.atom "=".toList :: sxs K ev l)
  | .neq l => if l.length ≤ 1 then .atom "true".toList else .list (.atom "distinct".toList :: sxs K ev l)
  | .not a => .list [.atom "not".toList, sx K ev a]
  | .imp a b => .list [.atom "=>".toList, sx K ev a, sx K ev b]
  | .subterm f a b => .list [.atom "subterm".toList, .atom (K.name f), sx K ev a, sx K ev b]
  | .ite c a b => .list [.atom "ite".toList, sx K ev c, sx K ev a, sx K ev b]
def sxs (K : SymInfo F) (ev : Bool) : List (SmtFm F) → List SExp
  | [] => []
  | a :: as => sx K ev a :: sxs K ev as
end

theorem sxs_eq (K : SymInfo F) (ev : Bool) (l : List (SmtFm F)) : sxs K ev l = l.map (sx K ev) := by
  induction l with
  | nil => rfl
  | cons a l ih => simp [sxs, ih]

/-- Boolean-valued formulas: a connective or a quantifier. -/
def isBool : SmtFm F → Prop
  | .fn .. | .var _ | .subterm .. | .ite .. => False
  | .tru | .fls | .and _ | .or _ | .eq _ | .neq _ | .not _ | .imp .. | .all .. | .ex .. => True

mutual
/-- Printable: symbols are used in the positions of their kind, the no-op `evaluate` has one
argument, every variable refers to a binder of the same sort, the body of a quantifier without
variables is Boolean. -/
def OK (K : SymInfo F) (ev : Bool) : List Var → SmtFm F → Prop
  | bd, .var v => bd.find? (fun w => w.id == v.id) = some v
  | bd, .fn f args => (K.kind f = .fn ∨ K.kind f = .evaluate) ∧
      (ev = true → K.kind f = .evaluate → args.length = 1) ∧ OKs K ev bd args
  | bd, .all vs b => (vs = [] → isBool b) ∧ OK K ev (vs.reverse ++ bd) b
  | bd, .ex vs b => (vs = [] → isBool b) ∧ OK K ev (vs.reverse ++ bd) b
  | _, .tru => True
  | _, .fls => True
  | bd, .and l => OKs K ev bd l
  | bd, .or l => OKs K ev bd l
  | bd, .eq l => OKs K ev bd l
  | bd, .neq l => OKs K ev bd l
  | bd, .not a => OK K ev bd a
  | bd, .imp a b => OK K ev bd a ∧ OK K ev bd b
  | bd, .subterm f a b => K.kind f = .vampSub ∧ OK K ev bd a ∧ OK K ev bd b
  | bd, .ite c a b => OK K ev bd c ∧ OK K ev bd a ∧ OK K ev bd b
def OKs (K : SymInfo F) (ev : Bool) : List Var → List (SmtFm F) → Prop
  | _, [] => True
  | bd, a :: as => OK K ev bd a ∧ OKs K ev bd as
end

theorem dispVars_lex {K : SymInfo F} (hK : Names K) : ∀ vs : List Var, ∃ t, dispVars K vs = some t ∧
    ∀ rest, lex (some []) (t ++ rest) = tokss (vs.map (sxVar K)) ++ lex (some []) rest
  | [] => ⟨[], rfl, fun rest => by simp [tokss]⟩
  | v :: vs => by
    obtain ⟨t, ht, hl⟩ := dispVars_lex hK vs
    refine ⟨_, by simp only [dispVars, varName_some hK, ht, Option.bind_some, Option.map_some]; rfl, ?_⟩
    intro rest
    simp only [List.cons_append, List.append_assoc, List.nil_append, List.map_cons, tokss]
    rw [lex_lp, lex_name (vn_ok hK v) (delim_sp _), lex_sp, lex_name (hK.sortOK _) (delim_rp _), lex_rp,
      lex_sp, hl]
    simp [sxVar, toks, tokss]

theorem spaced_lex : ∀ {ds : List Txt} {es : List SExp}, List.Forall₂ (fun d e => LexTo d (toks e)) ds es →
    ∀ rest, lex (some []) (spaced ds ++ rest) = tokss es ++ lex (some []) rest
  | _, _, .nil, rest => by simp [spaced, tokss]
  | d :: ds, e :: es, .cons h hs, rest => by
    have ih := spaced_lex hs rest
    simp only [spaced, List.flatMap_cons, List.append_assoc, tokss] at ih ⊢
    rw [h _ (by exact delim_sp _)]
    simp only [List.cons_append, List.nil_append]
    rw [lex_sp, ih]

theorem funList_lex {s : Txt} (hs : NameOK s) {ds : List Txt} {es : List SExp}
    (h : List.Forall₂ (fun d e => LexTo d (toks e)) ds es) :
    LexTo (funList s ds) (toks (.list (.atom s :: es))) := by
  intro rest hd
  simp only [funList, List.cons_append, List.append_assoc]
  rw [lex_lp, lex_name hs (delim_sp _), lex_sp, spaced_lex h]
  simp only [List.nil_append, List.cons_append]
  rw [lex_rp]
  simp [toks, tokss]

theorem forall₂_length {α β : Type} {R : α → β → Prop} {a : List α} {b : List β}
    (h : List.Forall₂ R a b) : a.length = b.length := by
  induction h with
  | nil => rfl
  | cons _ _ ih => simp [ih]

mutual
theorem disp_lex {K : SymInfo F} (hK : Names K) {ev : Bool} : ∀ {f : SmtFm F} {bd : List Var},
    OK K ev bd f → ∃ t, disp K ev f = some t ∧ LexTo t (toks (sx K ev f))
  | .var v, bd, _ => ⟨vn K v, by simp [disp, varName_some hK], by simpa [sx, toks] using LexTo.name (vn_ok hK v)⟩
  | .fn f args, bd, h => by
    obtain ⟨hk, h1, h2⟩ := h
    obtain ⟨ts, hts, hl⟩ := disps_lex hK h2
    have hlen : ts.length = args.length := by rw [forall₂_length hl, sxs_eq]; simp
    have hfn : (K.kind f).isFn = true := by rcases hk with hk | hk <;> simp [hk, SKind.isFn]
    by_cases hno : (ev && K.kind f == .evaluate) = true
    · simp only [Bool.and_eq_true, beq_iff_eq] at hno
      have ha := h1 hno.1 hno.2
      match args, ha, hl, hts with
      | [a], _, hl, hts =>
        match ts, hl with
        | [t], .cons ht .nil =>
          exact ⟨t, by simp only [disp, hts]; simp [hno.1, hno.2], by simpa [sx, sxs, hno.1, hno.2] using ht⟩
    · cases args with
      | nil =>
        simp only [disps, Option.some.injEq] at hts
        subst hts
        refine ⟨K.name f ++ [' '], by simp [disp, disps, hno], ?_⟩
        intro rest hd
        simp only [List.append_assoc, List.cons_append, List.nil_append]
        rw [lex_name (hK.ok f hfn) (delim_sp _), lex_sp]
        simp [sx, hno, toks]
      | cons a as =>
        have : ts.isEmpty = false := by cases ts <;> simp_all
        refine ⟨_, by simp only [disp, hts, Option.bind_some, hno, this, if_false, Bool.false_eq_true]; rfl, ?_⟩
        have := funList_lex (hK.ok f hfn) hl
        simpa [funList, sx, hno] using this
  | .all vs b, bd, h => by
    obtain ⟨t, ht, hl⟩ := disp_lex hK (f := b) h.2
    cases vs with
    | nil => exact ⟨t, by simp [disp, ht], by simpa [sx] using hl⟩
    | cons v vs =>
      obtain ⟨tv, htv, hlv⟩ := dispVars_lex hK (v :: vs)
      refine ⟨_, by simp only [disp, ht, htv, Option.bind_some, Option.map_some, List.isEmpty_cons,
        Bool.false_eq_true, if_false]; rfl, ?_⟩
      intro rest hd
      have e : ∀ x, "(forall (".toList ++ x = '(' :: ("forall".toList ++ ' ' :: '(' :: x) := by simp
      have e' : ∀ x, ") ".toList ++ x = ')' :: ' ' :: x := by simp
      simp only [List.append_assoc]
      rw [e, lex_lp, lex_name (by decide) (delim_sp _), lex_sp, lex_lp, hlv, e', lex_rp, lex_sp,
        hl _ (by exact delim_rp _)]
      simp only [List.cons_append, List.nil_append]
      rw [lex_rp]
      simp [sx, toks, tokss]
  | .ex vs b, bd, h => by
    obtain ⟨t, ht, hl⟩ := disp_lex hK (f := b) h.2
    cases vs with
    | nil => exact ⟨t, by simp [disp, ht], by simpa [sx] using hl⟩
    | cons v vs =>
      obtain ⟨tv, htv, hlv⟩ := dispVars_lex hK (v :: vs)
      refine ⟨_, by simp only [disp, ht, htv, Option.bind_some, Option.map_some, List.isEmpty_cons,
        Bool.false_eq_true, if_false]; rfl, ?_⟩
      intro rest hd
      have e : ∀ x, "(exists (".toList ++ x = '(' :: ("exists".toList ++ ' ' :: '(' :: x) := by simp
      have e' : ∀ x, ") ".toList ++ x = ')' :: ' ' :: x := by simp
      simp only [List.append_assoc]
      rw [e, lex_lp, lex_name (by decide) (delim_sp _), lex_sp, lex_lp, hlv, e', lex_rp, lex_sp,
        hl _ (by exact delim_rp _)]
      simp only [List.cons_append, List.nil_append]
      rw [lex_rp]
      simp [sx, toks, tokss]
  | .tru, bd, _ => ⟨_, rfl, by simpa [sx, toks] using LexTo.name (n := "true".toList) (by decide)⟩
  | .fls, bd, _ => ⟨_, rfl, by simpa [sx, toks] using LexTo.name (n := "false".toList) (by decide)⟩
  | .and l, bd, h => by
    obtain ⟨ts, hts, hl⟩ := disps_lex hK (l := l) h
    cases l with
    | nil =>
      simp only [disps, Option.some.injEq] at hts; subst hts
      exact ⟨_, by simp only [disp, disps, Option.map_some]; rfl,
        by simpa [sx, toks] using LexTo.name (n := "true".toList) (by decide)⟩
    | cons a l =>
      have : ts.isEmpty = false := by cases hl; rfl
      exact ⟨_, by simp only [disp, hts, Option.map_some, this, Bool.false_eq_true, if_false]; rfl,
        by simpa [sx] using funList_lex (s := "and".toList) (by decide) hl⟩
  | .or l, bd, h => by
    obtain ⟨ts, hts, hl⟩ := disps_lex hK (l := l) h
    cases l with
    | nil =>
      simp only [disps, Option.some.injEq] at hts; subst hts
      exact ⟨_, by simp only [disp, disps, Option.map_some]; rfl,
        by simpa [sx, toks] using LexTo.name (n := "false".toList) (by decide)⟩
    | cons a l =>
      have : ts.isEmpty = false := by cases hl; rfl
      exact ⟨_, by simp only [disp, hts, Option.map_some, this, Bool.false_eq_true, if_false]; rfl,
        by simpa [sx] using funList_lex (s := "or".toList) (by decide) hl⟩
  | .eq l, bd, h => by
    obtain ⟨ts, hts, hl⟩ := disps_lex hK (l := l) h
    have hlen : ts.length = l.length := by rw [forall₂_length hl, sxs_eq]; simp
    by_cases h1 : l.length ≤ 1
    · exact ⟨_, by simp only [disp, hts, Option.map_some, hlen, h1, if_true]; rfl,
        by simpa [sx, toks, h1] using LexTo.name (n := "true".toList) (by decide)⟩
    · exact ⟨_, by simp only [disp, hts, Option.map_some, hlen, h1, if_false]; rfl,
        by simpa [sx, h1] using funList_lex (s := "=".toList) (by decide) hl⟩
  | .neq l, bd, h => by
    obtain ⟨ts, hts, hl⟩ := disps_lex hK (l := l) h
    have hlen : ts.length = l.length := by rw [forall₂_length hl, sxs_eq]; simp
    by_cases h1 : l.length ≤ 1
    · exact ⟨_, by simp only [disp, hts, Option.map_some, hlen, h1, if_true]; rfl,
        by simpa [sx, toks, h1] using LexTo.name (n := "true".toList) (by decide)⟩
    · exact ⟨_, by simp only [disp, hts, Option.map_some, hlen, h1, if_false]; rfl,
        by simpa [sx, h1] using funList_lex (s := "distinct".toList) (by decide) hl⟩
  | .not a, bd, h => by
    obtain ⟨t, ht, hl⟩ := disp_lex hK (f := a) h
    refine ⟨_, by simp only [disp, ht, Option.map_some]; rfl, ?_⟩
    intro rest hd
    have e : ∀ x, "(not ".toList ++ x = '(' :: ("not".toList ++ ' ' :: x) := by simp
    simp only [List.append_assoc]
    rw [e, lex_lp, lex_name (by decide) (delim_sp _), lex_sp, hl _ (by exact delim_rp _)]
    simp only [List.cons_append, List.nil_append]
    rw [lex_rp]
    simp [sx, toks, tokss]
  | .imp a b, bd, h => by
    obtain ⟨t, ht, hl⟩ := disp_lex hK (f := a) h.1
    obtain ⟨t', ht', hl'⟩ := disp_lex hK (f := b) h.2
    refine ⟨_, by simp only [disp, ht, ht', Option.map_some, Option.bind_some]; rfl, ?_⟩
    intro rest hd
    have e : ∀ x, "(=> ".toList ++ x = '(' :: ("=>".toList ++ ' ' :: x) := by simp
    simp only [List.append_assoc]
    rw [e, lex_lp, lex_name (by decide) (delim_sp _), lex_sp]
    simp only [List.cons_append, List.append_assoc, List.nil_append]
    rw [hl _ (by exact delim_sp _), lex_sp, hl' _ (by exact delim_rp _), lex_rp]
    simp [sx, toks, tokss]
  | .subterm f a b, bd, h => by
    obtain ⟨hk, h1, h2⟩ := h
    have hfn : (K.kind f).isFn = true := by simp [hk, SKind.isFn]
    obtain ⟨t, ht, hl⟩ := disp_lex hK (f := a) h1
    obtain ⟨t', ht', hl'⟩ := disp_lex hK (f := b) h2
    refine ⟨_, by simp only [disp, ht, ht', Option.map_some, Option.bind_some]; rfl, ?_⟩
    intro rest hd
    have e : ∀ x, "(subterm ".toList ++ x = '(' :: ("subterm".toList ++ ' ' :: x) := by simp
    simp only [List.append_assoc]
    rw [e, lex_lp, lex_name (by decide) (delim_sp _), lex_sp]
    simp only [List.cons_append, List.append_assoc, List.nil_append]
    rw [lex_name (hK.ok f hfn) (delim_sp _), lex_sp, hl _ (by exact delim_sp _), lex_sp,
      hl' _ (by exact delim_rp _), lex_rp]
    simp [sx, toks, tokss]
  | .ite c a b, bd, h => by
    obtain ⟨h0, h1, h2⟩ := h
    obtain ⟨t0, ht0, hl0⟩ := disp_lex hK (f := c) h0
    obtain ⟨t, ht, hl⟩ := disp_lex hK (f := a) h1
    obtain ⟨t', ht', hl'⟩ := disp_lex hK (f := b) h2
    refine ⟨_, by simp only [disp, ht0, ht, ht', Option.map_some, Option.bind_some]; rfl, ?_⟩
    intro rest hd
    have e : ∀ x, "(ite ".toList ++ x = '(' :: ("ite".toList ++ ' ' :: x) := by simp
    simp only [List.append_assoc]
    rw [e, lex_lp, lex_name (by decide) (delim_sp _), lex_sp]
    simp only [List.cons_append, List.append_assoc, List.nil_append]
    rw [hl0 _ (by exact delim_sp _), lex_sp, hl _ (by exact delim_sp _), lex_sp,
      hl' _ (by exact delim_rp _), lex_rp]
    simp [sx, toks, tokss]
theorem disps_lex {K : SymInfo F} (hK : Names K) {ev : Bool} : ∀ {l : List (SmtFm F)} {bd : List Var},
    OKs K ev bd l → ∃ ts, disps K ev l = some ts ∧
      List.Forall₂ (fun d e => LexTo d (toks e)) ts (sxs K ev l)
  | [], bd, _ => ⟨[], rfl, by simp [sxs]⟩
  | a :: as, bd, h => by
    obtain ⟨t, ht, hl⟩ := disp_lex hK h.1
    obtain ⟨ts, hts, hls⟩ := disps_lex hK h.2
    exact ⟨t :: ts, by simp [disps, ht, hts], by rw [sxs]; exact List.Forall₂.cons hl hls⟩
end

/-! ### Meaning of internal SMT formulas -/

mutual
/-- SPECIFICATION: value of an internal SMT formula. -/
noncomputable def SmtFm.eval (M : Str F D) (ρ : Valn D) : SmtFm F → D
  | .var v => ρ v.id
  | .fn f args => M.fn f (SmtFm.evals M ρ args)
  | .all vs b => M.ofProp (quantVal M .all vs (fun ρ' => M.truth (SmtFm.eval M ρ' b)) ρ)
  | .ex vs b => M.ofProp (quantVal M .ex vs (fun ρ' => M.truth (SmtFm.eval M ρ' b)) ρ)
  | .tru => M.ofProp True
  | .fls => M.ofProp False
  | .and l => M.ofProp (∀ a ∈ SmtFm.evals M ρ l, M.truth a)
  | .or l => M.ofProp (∃ a ∈ SmtFm.evals M ρ l, M.truth a)
  | .eq l => M.ofProp (∀ a ∈ SmtFm.evals M ρ l, ∀ b ∈ SmtFm.evals M ρ l, a = b)
  | .neq l => M.ofProp ((SmtFm.evals M ρ l).Pairwise (· ≠ ·))
  | .not a => M.ofProp (¬ M.truth (SmtFm.eval M ρ a))
  | .imp a b => M.ofProp (M.truth (SmtFm.eval M ρ a) → M.truth (SmtFm.eval M ρ b))
  | .subterm f a b => M.fn f [SmtFm.eval M ρ a, SmtFm.eval M ρ b]
  | .ite c a b => if M.truth (SmtFm.eval M ρ c) then SmtFm.eval M ρ a else SmtFm.eval M ρ b
noncomputable def SmtFm.evals (M : Str F D) (ρ : Valn D) : List (SmtFm F) → List D
  | [] => []
  | a :: as => SmtFm.eval M ρ a :: SmtFm.evals M ρ as
end

theorem evals_map (M : Str F D) (ρ : Valn D) (l : List (SmtFm F)) :
    SmtFm.evals M ρ l = l.map (SmtFm.eval M ρ) := by
  induction l with
  | nil => rfl
  | cons a l ih => simp [SmtFm.evals, ih]

/-- The interpretation `I` of names and the structure `M` of symbols say the same; when the realm is
the evaluated one (`ev`), the `evaluate` functions are the identity. -/
structure Reads (K : SymInfo F) (ev : Bool) (I : Interp D) (M : Str F D) : Prop where
  truth : ∀ d, I.truth d ↔ M.truth d
  ofProp : ∀ p, I.ofProp p = M.ofProp p
  dom : ∀ s d, I.dom (K.sortName s) d ↔ M.dom s d
  fn : ∀ f, K.kind f = .fn ∨ K.kind f = .vampSub → ∀ as, I.fn (K.name f) as = M.fn f as
  evalFn : ev = false → ∀ f, K.kind f = .evaluate → ∀ as, I.fn (K.name f) as = M.fn f as
  evalNoop : ev = true → ∀ f, K.kind f = .evaluate → ∀ d, M.fn f [d] = d

theorem chainEq_iff {D : Type} : ∀ l : List D, chainEq l ↔ ∀ a ∈ l, ∀ b ∈ l, a = b
  | [] => by simp [chainEq]
  | [a] => by simp [chainEq]
  | a :: b :: l => by
    have ih := chainEq_iff (b :: l)
    simp only [chainEq, ih]
    constructor
    · rintro ⟨rfl, h⟩ x hx y hy
      have hx' : x ∈ a :: l := by simpa using hx
      have hy' : y ∈ a :: l := by simpa using hy
      exact h x hx' y hy'
    · intro h
      exact ⟨h a (by simp) b (by simp), fun x hx y hy => h x (List.mem_cons_of_mem _ hx) y
        (List.mem_cons_of_mem _ hy)⟩

/-- The environment of the text and the valuation agree on the visible variables. -/
def Rel (K : SymInfo F) (bd : List Var) (ρ : Valn D) (e : Env D) : Prop :=
  (∀ v, bd.find? (fun w => w.id == v.id) = some v → e (vn K v) = some (ρ v.id)) ∧
  (∀ n d, e n = some d → ∃ v, n = vn K v)

theorem Rel.set {K : SymInfo F} (hK : Names K) {bd : List Var} {ρ : Valn D} {e : Env D}
    (h : Rel K bd ρ e) (v : Var) (d : D) : Rel K (v :: bd) (ρ.set v.id d) (e.set (vn K v) d) := by
  refine ⟨?_, ?_⟩
  · intro w hw
    simp only [List.find?_cons] at hw
    by_cases hvw : v.id = w.id
    · simp only [hvw, beq_self_eq_true, Option.some.injEq] at hw
      subst hw
      simp [Env.set, Valn.set]
    · simp only [beq_eq_false_iff_ne.2 hvw] at hw
      have hne : vn K w ≠ vn K v := fun heq => hvw (vn_inj hK heq).symm
      simp only [Env.set, hne, if_false]
      rw [h.1 w hw, Valn.set_ne _ _ (fun e => hvw e.symm)]
  · intro n d' hn
    simp only [Env.set] at hn
    by_cases hnv : n = vn K v
    · exact ⟨v, hnv⟩
    · simp only [hnv, if_false] at hn; exact h.2 n d' hn

theorem quant_agree {K : SymInfo F} (hK : Names K) {ev : Bool} {I : Interp D} {M : Str F D}
    (hR : Reads K ev I M) (q : QKind) (P : Valn D → Prop) (Q : Env D → Prop) :
    ∀ (vs bd : List Var) (ρ : Valn D) (e : Env D), Rel K bd ρ e →
      (∀ ρ' e', Rel K (vs.reverse ++ bd) ρ' e' → (P ρ' ↔ Q e')) →
      (quantVal M q vs P ρ ↔ quantS I q (vs.map fun v => (vn K v, K.sortName v.sort)) Q e) := by
  intro vs
  induction vs with
  | nil => intro bd ρ e h hPQ; exact hPQ ρ e h
  | cons v vs ih =>
    intro bd ρ e h hPQ
    have key : ∀ d, quantVal M q vs P (ρ.set v.id d) ↔
        quantS I q (vs.map fun v => (vn K v, K.sortName v.sort)) Q (e.set (vn K v) d) := by
      intro d
      apply ih (v :: bd) _ _ (h.set hK v d)
      intro ρ' e' h'
      exact hPQ ρ' e' (by simpa using h')
    cases q with
    | all =>
      simp only [quantVal, quantS, List.map_cons]
      exact forall_congr' fun d => by rw [hR.dom, key]
    | ex =>
      simp only [quantVal, quantS, List.map_cons]
      exact exists_congr fun d => by rw [hR.dom, key]

theorem filterMap_binder (K : SymInfo F) (vs : List Var) :
    (vs.map (sxVar K)).filterMap binder = vs.map fun v => (vn K v, K.sortName v.sort) := by
  induction vs with
  | nil => rfl
  | cons v vs ih =>
    rw [List.map_cons, List.filterMap_cons, ih]; rfl

theorem sems_eq (I : Interp D) (l : List SExp) : sems I l = l.map (sem I) := by
  induction l with
  | nil => rfl
  | cons a l ih => simp [sems, ih]

theorem sem_true {K : SymInfo F} (hK : Names K) {I : Interp D} {bd : List Var} {ρ : Valn D} {e : Env D}
    (h : Rel K bd ρ e) : sem I (.atom "true".toList) e = I.ofProp True := by
  have : e "true".toList = none := by
    cases hn : e "true".toList with
    | none => rfl
    | some d => obtain ⟨v, hv⟩ := h.2 _ _ hn; exact absurd hv.symm (vn_ne_true hK v)
  simp only [sem, this, if_true]
theorem sem_false {K : SymInfo F} (hK : Names K) {I : Interp D} {bd : List Var} {ρ : Valn D} {e : Env D}
    (h : Rel K bd ρ e) : sem I (.atom "false".toList) e = I.ofProp False := by
  have : e "false".toList = none := by
    cases hn : e "false".toList with
    | none => rfl
    | some d => obtain ⟨v, hv⟩ := h.2 _ _ hn; exact absurd hv.symm (vn_ne_false hK v)
  have hne : "false".toList ≠ "true".toList := by decide
  simp only [sem, this, if_true, hne, if_false]

theorem appS_plain {I : Interp D} {h : Txt} (hr : h ∉ reserved) (l : List SExp) (ds : List (Env D → D))
    (e : Env D) : appS I h l ds e = I.fn h (ds.map (· e)) := by
  simp only [reserved, List.map_cons, List.map_nil, List.mem_cons, not_or] at hr
  obtain ⟨h1, h2, h3, h4, h5, h6, h7, h8, h9, h10, h11, h12, _⟩ := hr
  simp only [appS, h1, h2, h3, h4, h5, h6, h7, h8, h9, h10, if_false]

theorem ofProp_truth (M : Str F D) (p : Prop) : M.ofProp (M.truth (M.ofProp p)) = M.ofProp p := by
  rw [propext (M.truth_ofProp p)]

/-- Boolean-valued formulas have canonical values. -/
theorem canon {M : Str F D} {b : SmtFm F} (h : isBool b) (ρ : Valn D) : M.ofProp (M.truth (b.eval M ρ)) = b.eval M ρ := by
  cases b with
  | fn f as => exact h.elim
  | var v => exact h.elim
  | subterm f a b => exact h.elim
  | ite c a b => exact h.elim
  | _ => simp only [SmtFm.eval, ofProp_truth]

mutual
theorem sem_sx {K : SymInfo F} (hK : Names K) {ev : Bool} {I : Interp D} {M : Str F D}
    (hR : Reads K ev I M) : ∀ {f : SmtFm F} {bd : List Var} {ρ : Valn D} {e : Env D},
    OK K ev bd f → Rel K bd ρ e → sem I (sx K ev f) e = f.eval M ρ
  | .var v, bd, ρ, e, h, hr => by
    simp only [sx, sem, hr.1 v h, SmtFm.eval]
  | .fn f args, bd, ρ, e, h, hr => by
    obtain ⟨hk, h1, h2⟩ := h
    have hfn : (K.kind f).isFn = true := by rcases hk with hk | hk <;> simp [hk, SKind.isFn]
    have ih := sem_sxs hK hR (l := args) h2 hr
    by_cases hno : (ev && K.kind f == .evaluate) = true
    · simp only [Bool.and_eq_true, beq_iff_eq] at hno
      have ha := h1 hno.1 hno.2
      match args, ha, ih with
      | [a], _, ih =>
        simp only [sxs, sems, List.map_cons, List.map_nil, SmtFm.evals, List.cons.injEq, and_true] at ih
        simp only [sx, hno.1, hno.2, beq_self_eq_true, Bool.and_self, if_true, sxs, List.head?_cons,
          Option.getD_some, SmtFm.eval, SmtFm.evals]
        rw [← hno.1, ih, hR.evalNoop hno.1 f hno.2]
    · have hIM : ∀ as, I.fn (K.name f) as = M.fn f as := by
        rcases hk with hk | hk
        · exact hR.fn f (Or.inl hk)
        · exact hR.evalFn (by simpa [hk] using hno) f hk
      cases args with
      | nil =>
        have he : e (K.name f) = none := by
          cases hn : e (K.name f) with
          | none => rfl
          | some d => obtain ⟨v, hv⟩ := hr.2 _ _ hn; exact absurd hv (hK.var f v hfn)
        have hres := hK.res f hfn
        simp only [reserved, List.map_cons, List.map_nil, List.mem_cons, not_or] at hres
        obtain ⟨_, _, _, _, _, _, _, _, _, _, h11, h12, _⟩ := hres
        simp only [sx, hno, List.isEmpty_nil, if_true, Bool.false_eq_true, if_false, sem, he, h11, h12,
          SmtFm.eval, SmtFm.evals, hIM]
      | cons a as =>
        simp only [sx, hno, List.isEmpty_cons, Bool.false_eq_true, if_false, sem, SmtFm.eval]
        rw [appS_plain (hK.res f hfn), ih, hIM]
  | .all vs b, bd, ρ, e, h, hr => by
    cases vs with
    | nil =>
      have hb := sem_sx hK hR (f := b) (by simpa using h.2) hr
      simp only [sx, List.isEmpty_nil, if_true, SmtFm.eval, quantVal, hb]
      exact (canon (h.1 rfl) ρ).symm
    | cons v vs =>
      have hd : ∀ e, appS I "forall".toList [SExp.list ((v :: vs).map (sxVar K)), sx K ev b]
          (sems I [SExp.list ((v :: vs).map (sxVar K)), sx K ev b]) e = I.ofProp (quantS I .all
          (((v :: vs).map (sxVar K)).filterMap binder) (fun e' => I.truth (sem I (sx K ev b) e')) e) := by
        intro e; rfl
      simp only [sx, List.isEmpty_cons, Bool.false_eq_true, if_false, sem, SmtFm.eval]
      rw [hd, filterMap_binder, hR.ofProp]
      congr 1
      apply propext
      refine (quant_agree hK hR .all _ _ (v :: vs) bd ρ e hr ?_).symm
      intro ρ' e' hr'
      rw [sem_sx hK hR (f := b) h.2 hr', hR.truth]
  | .ex vs b, bd, ρ, e, h, hr => by
    cases vs with
    | nil =>
      have hb := sem_sx hK hR (f := b) (by simpa using h.2) hr
      simp only [sx, List.isEmpty_nil, if_true, SmtFm.eval, quantVal, hb]
      exact (canon (h.1 rfl) ρ).symm
    | cons v vs =>
      have hd : ∀ e, appS I "exists".toList [SExp.list ((v :: vs).map (sxVar K)), sx K ev b]
          (sems I [SExp.list ((v :: vs).map (sxVar K)), sx K ev b]) e = I.ofProp (quantS I .ex
          (((v :: vs).map (sxVar K)).filterMap binder) (fun e' => I.truth (sem I (sx K ev b) e')) e) := by
        intro e; rfl
      simp only [sx, List.isEmpty_cons, Bool.false_eq_true, if_false, sem, SmtFm.eval]
      rw [hd, filterMap_binder, hR.ofProp]
      congr 1
      apply propext
      refine (quant_agree hK hR .ex _ _ (v :: vs) bd ρ e hr ?_).symm
      intro ρ' e' hr'
      rw [sem_sx hK hR (f := b) h.2 hr', hR.truth]
  | .tru, bd, ρ, e, h, hr => by rw [sx, sem_true hK hr, hR.ofProp, SmtFm.eval]
  | .fls, bd, ρ, e, h, hr => by rw [sx, sem_false hK hr, hR.ofProp, SmtFm.eval]
  | .and l, bd, ρ, e, h, hr => by
    have ih := sem_sxs hK hR (l := l) h hr
    cases l with
    | nil => simp only [sx, List.isEmpty_nil, if_true, sem_true hK hr, hR.ofProp, SmtFm.eval, SmtFm.evals]; simp
    | cons a l =>
      have hd : ∀ l ds, appS I "and".toList l ds e = I.ofProp (∀ a ∈ ds.map (· e), I.truth a) := by
        intro l ds; rfl
      simp only [sx, List.isEmpty_cons, Bool.false_eq_true, if_false, sem, SmtFm.eval]
      rw [hd, ih, hR.ofProp]; simp only [hR.truth]
  | .or l, bd, ρ, e, h, hr => by
    have ih := sem_sxs hK hR (l := l) h hr
    cases l with
    | nil => simp only [sx, List.isEmpty_nil, if_true, sem_false hK hr, hR.ofProp, SmtFm.eval, SmtFm.evals]; simp
    | cons a l =>
      have hd : ∀ l ds, appS I "or".toList l ds e = I.ofProp (∃ a ∈ ds.map (· e), I.truth a) := by
        intro l ds; rfl
      simp only [sx, List.isEmpty_cons, Bool.false_eq_true, if_false, sem, SmtFm.eval]
      rw [hd, ih, hR.ofProp]; simp only [hR.truth]
  | .eq l, bd, ρ, e, h, hr => by
    have ih := sem_sxs hK hR (l := l) h hr
    by_cases h1 : l.length ≤ 1
    · simp only [sx, h1, if_true, sem_true hK hr, hR.ofProp, SmtFm.eval]
      congr 1; apply propext
      match l, h1 with
      | [], _ => simp [SmtFm.evals]
      | [a], _ => simp [SmtFm.evals]
    · have hd : ∀ l ds, appS I "=".toList l ds e = I.ofProp (chainEq (ds.map (· e))) := by
        intro l ds; rfl
      simp only [sx, h1, if_false, sem, SmtFm.eval]
      rw [hd, ih, hR.ofProp, propext (chainEq_iff _)]
  | .neq l, bd, ρ, e, h, hr => by
    have ih := sem_sxs hK hR (l := l) h hr
    by_cases h1 : l.length ≤ 1
    · simp only [sx, h1, if_true, sem_true hK hr, hR.ofProp, SmtFm.eval]
      congr 1; apply propext
      match l, h1 with
      | [], _ => simp [SmtFm.evals]
      | [a], _ => simp [SmtFm.evals]
    · have hd : ∀ l ds, appS I "distinct".toList l ds e = I.ofProp ((ds.map (· e)).Pairwise (· ≠ ·)) := by
        intro l ds; rfl
      simp only [sx, h1, if_false, sem, SmtFm.eval]
      rw [hd, ih, hR.ofProp]
  | .not a, bd, ρ, e, h, hr => by
    have ih := sem_sx hK hR (f := a) h hr
    have hd : ∀ a, appS I "not".toList [a] (sems I [a]) e = I.ofProp (¬ I.truth (sem I a e)) := by
      intro a; rfl
    simp only [sx, sem, SmtFm.eval]
    rw [hd, ih, hR.ofProp, propext (hR.truth _)]
  | .imp a b, bd, ρ, e, h, hr => by
    have ih := sem_sx hK hR (f := a) h.1 hr
    have ih' := sem_sx hK hR (f := b) h.2 hr
    have hd : ∀ a b, appS I "=>".toList [a, b] (sems I [a, b]) e =
        I.ofProp (I.truth (sem I a e) → I.truth (sem I b e)) := by
      intro a b; rfl
    simp only [sx, sem, SmtFm.eval]
    rw [hd, ih, ih', hR.ofProp, propext (hR.truth _), propext (hR.truth _)]
  | .subterm f a b, bd, ρ, e, h, hr => by
    have ih := sem_sx hK hR (f := a) h.2.1 hr
    have ih' := sem_sx hK hR (f := b) h.2.2 hr
    have hd : ∀ f a b, appS I "subterm".toList [.atom f, a, b] (sems I [.atom f, a, b]) e =
        I.fn f [sem I a e, sem I b e] := by
      intro f a b; rfl
    simp only [sx, sem, SmtFm.eval]
    rw [hd, ih, ih', hR.fn f (Or.inr h.1)]
  | .ite c a b, bd, ρ, e, h, hr => by
    have ih0 := sem_sx hK hR (f := c) h.1 hr
    have ih := sem_sx hK hR (f := a) h.2.1 hr
    have ih' := sem_sx hK hR (f := b) h.2.2 hr
    have hd : ∀ c a b, appS I "ite".toList [c, a, b] (sems I [c, a, b]) e =
        if I.truth (sem I c e) then sem I a e else sem I b e := by
      intro c a b; rfl
    simp only [sx, sem, SmtFm.eval]
    rw [hd, ih0, ih, ih']
    simp only [hR.truth]
theorem sem_sxs {K : SymInfo F} (hK : Names K) {ev : Bool} {I : Interp D} {M : Str F D}
    (hR : Reads K ev I M) : ∀ {l : List (SmtFm F)} {bd : List Var} {ρ : Valn D} {e : Env D},
    OKs K ev bd l → Rel K bd ρ e → (sems I (sxs K ev l)).map (· e) = SmtFm.evals M ρ l
  | [], _, _, _, _, _ => rfl
  | a :: as, bd, ρ, e, h, hr => by
    simp only [sxs, sems, List.map_cons, SmtFm.evals]
    rw [sem_sx hK hR h.1 hr, sem_sxs hK hR h.2 hr]
end

theorem rel_nil (K : SymInfo F) (ρ : Valn D) : Rel K [] ρ (noEnv : Env D) :=
  ⟨fun v h => by simp at h, fun n d h => by simp [noEnv] at h⟩

/-- C15. The text printed for a closed internal formula reads back as one s-expression, and that
s-expression means what the formula means, whatever the realm, at every depth. -/
theorem C15_text {K : SymInfo F} (hK : Names K) {ev : Bool} {f : SmtFm F} (h : OK K ev [] f) :
    ∃ t e, disp K ev f = some t ∧ read t = some [e] ∧
      ∀ (D : Type) (I : Interp D) (M : Str F D), Reads K ev I M → ∀ ρ, sem I e noEnv = f.eval M ρ := by
  obtain ⟨t, ht, hl⟩ := disp_lex hK h
  exact ⟨t, sx K ev f, ht, hl.read, fun D I M hR ρ => sem_sx hK hR h (rel_nil K ρ)⟩

/-! ### From formulas to SMT formulas -/

/-- SPECIFICATION: the logical symbols have their usual meaning. -/
structure Std (K : SymInfo F) (M : Str F D) : Prop where
  tru : ∀ f, K.kind f = .tru → M.fn f [] = M.ofProp True
  fls : ∀ f, K.kind f = .fls → M.fn f [] = M.ofProp False
  and : ∀ f, K.kind f = .and → ∀ l, M.fn f l = M.ofProp (∀ a ∈ l, M.truth a)
  or : ∀ f, K.kind f = .or → ∀ l, M.fn f l = M.ofProp (∃ a ∈ l, M.truth a)
  eq : ∀ f, K.kind f = .eq → ∀ l, M.fn f l = M.ofProp (∀ a ∈ l, ∀ b ∈ l, a = b)
  not : ∀ f, K.kind f = .not → ∀ a, M.fn f [a] = M.ofProp (¬ M.truth a)
  imp : ∀ f, K.kind f = .imp → ∀ a b, M.fn f [a, b] = M.ofProp (M.truth a → M.truth b)
  ite : ∀ f, K.kind f = .ite → ∀ c a b, M.fn f [c, a, b] = if M.truth c then a else b

/-- Number of arguments each kind takes. -/
def arityOK (ev : Bool) (n : Nat) : SKind → Prop
  | .tru | .fls => n = 0
  | .not => n = 1
  | .imp | .vampSub => n = 2
  | .ite => n = 3
  | .evaluate => ev = true → n = 1
  | .fn | .eq | .and | .or => True

/-- Logical head. -/
def boolHead (K : SymInfo F) : Fm F → Prop
  | .var _ => False
  | .quant .. => True
  | .app f _ => match K.kind f with
    | .tru | .fls | .and | .or | .eq | .not | .imp => True
    | .fn | .evaluate | .vampSub | .ite => False

mutual
/-- Formulas as the rest of the tool builds them: arities are respected, every variable refers to a
binder of its sort, a quantifier without variables has a connective below it. -/
def FmOK (K : SymInfo F) (ev : Bool) : List Var → Fm F → Prop
  | bd, .var v => bd.find? (fun w => w.id == v.id) = some v
  | bd, .quant _ vs b => (vs = [] → boolHead K b) ∧ FmOK K ev (vs.reverse ++ bd) b
  | bd, .app f args => arityOK ev args.length (K.kind f) ∧ FmOKs K ev bd args
def FmOKs (K : SymInfo F) (ev : Bool) : List Var → List (Fm F) → Prop
  | _, [] => True
  | bd, a :: as => FmOK K ev bd a ∧ FmOKs K ev bd as
end

mutual
theorem ofFm_ok {K : SymInfo F} {ev : Bool} : ∀ {f : Fm F} {bd : List Var}, FmOK K ev bd f →
    ∃ g, ofFm K f = some g ∧ OK K ev bd g ∧ (boolHead K f → isBool g) ∧
      ∀ (D : Type) (M : Str F D), Std K M → ∀ ρ, g.eval M ρ = f.eval M ρ
  | .var v, bd, h => ⟨.var v, rfl, h, fun h => h.elim, fun D M _ ρ => rfl⟩
  | .quant q vs b, bd, h => by
    obtain ⟨g, hg, hok, hb, he⟩ := ofFm_ok (f := b) h.2
    cases q with
    | all =>
      refine ⟨.all vs g, by simp [ofFm, hg], ⟨fun hv => hb (h.1 hv), hok⟩, fun _ => trivial, ?_⟩
      intro D M hM ρ
      simp only [SmtFm.eval, Fm.eval, he D M hM]
    | ex =>
      refine ⟨.ex vs g, by simp [ofFm, hg], ⟨fun hv => hb (h.1 hv), hok⟩, fun _ => trivial, ?_⟩
      intro D M hM ρ
      simp only [SmtFm.eval, Fm.eval, he D M hM]
  | .app f args, bd, h => by
    obtain ⟨gs, hgs, hok, hlen, he⟩ := ofFms_ok (l := args) h.2
    have har := h.1
    rw [← hlen] at har
    cases hk : K.kind f with
    | fn =>
      refine ⟨.fn f gs, by simp [ofFm, hgs, hk, ofApp], ⟨Or.inl hk, by simp [hk], hok⟩,
        by simp [boolHead, hk], fun D M hM ρ => ?_⟩
      simp only [SmtFm.eval, Fm.eval, he D M hM]
    | evaluate =>
      refine ⟨.fn f gs, by simp [ofFm, hgs, hk, ofApp], ⟨Or.inr hk, fun h1 _ => ?_, hok⟩,
        by simp [boolHead, hk], fun D M hM ρ => ?_⟩
      · rw [hk] at har; exact har h1
      · simp only [SmtFm.eval, Fm.eval, he D M hM]
    | vampSub =>
      rw [hk] at har
      match gs, har, hgs, hok, he with
      | [a, b], _, hgs, hok, he =>
        refine ⟨.subterm f a b, by simp [ofFm, hgs, hk, ofApp], ⟨hk, hok.1, hok.2.1⟩,
          by simp [boolHead, hk], fun D M hM ρ => ?_⟩
        simp only [SmtFm.eval, Fm.eval, ← he D M hM, SmtFm.evals]
    | ite =>
      rw [hk] at har
      match gs, har, hgs, hok, he with
      | [c, a, b], _, hgs, hok, he =>
        refine ⟨.ite c a b, by simp [ofFm, hgs, hk, ofApp], ⟨hok.1, hok.2.1, hok.2.2.1⟩,
          by simp [boolHead, hk], fun D M hM ρ => ?_⟩
        simp only [SmtFm.eval, Fm.eval, ← he D M hM, SmtFm.evals, hM.ite f hk]
    | eq =>
      refine ⟨.eq gs, by simp [ofFm, hgs, hk, ofApp], hok, fun _ => trivial, fun D M hM ρ => ?_⟩
      simp only [SmtFm.eval, Fm.eval, he D M hM, hM.eq f hk]
    | tru =>
      rw [hk] at har
      refine ⟨.tru, by simp [ofFm, hgs, hk, ofApp], trivial, fun _ => trivial, fun D M hM ρ => ?_⟩
      have : gs = [] := List.length_eq_zero_iff.1 har
      subst this
      simp only [SmtFm.eval, Fm.eval, ← he D M hM, SmtFm.evals, hM.tru f hk]
    | fls =>
      rw [hk] at har
      refine ⟨.fls, by simp [ofFm, hgs, hk, ofApp], trivial, fun _ => trivial, fun D M hM ρ => ?_⟩
      have : gs = [] := List.length_eq_zero_iff.1 har
      subst this
      simp only [SmtFm.eval, Fm.eval, ← he D M hM, SmtFm.evals, hM.fls f hk]
    | and =>
      refine ⟨.and gs, by simp [ofFm, hgs, hk, ofApp], hok, fun _ => trivial, fun D M hM ρ => ?_⟩
      simp only [SmtFm.eval, Fm.eval, he D M hM, hM.and f hk]
    | or =>
      refine ⟨.or gs, by simp [ofFm, hgs, hk, ofApp], hok, fun _ => trivial, fun D M hM ρ => ?_⟩
      simp only [SmtFm.eval, Fm.eval, he D M hM, hM.or f hk]
    | not =>
      rw [hk] at har
      match gs, har, hgs, hok, he with
      | [a], _, hgs, hok, he =>
        refine ⟨.not a, by simp [ofFm, hgs, hk, ofApp], hok.1, fun _ => trivial, fun D M hM ρ => ?_⟩
        simp only [SmtFm.eval, Fm.eval, ← he D M hM, SmtFm.evals, hM.not f hk]
    | imp =>
      rw [hk] at har
      match gs, har, hgs, hok, he with
      | [a, b], _, hgs, hok, he =>
        refine ⟨.imp a b, by simp [ofFm, hgs, hk, ofApp], ⟨hok.1, hok.2.1⟩, fun _ => trivial,
          fun D M hM ρ => ?_⟩
        simp only [SmtFm.eval, Fm.eval, ← he D M hM, SmtFm.evals, hM.imp f hk]
theorem ofFms_ok {K : SymInfo F} {ev : Bool} : ∀ {l : List (Fm F)} {bd : List Var}, FmOKs K ev bd l →
    ∃ gs, ofFms K l = some gs ∧ OKs K ev bd gs ∧ gs.length = l.length ∧
      ∀ (D : Type) (M : Str F D), Std K M → ∀ ρ, SmtFm.evals M ρ gs = Fm.evals M ρ l
  | [], bd, _ => ⟨[], rfl, trivial, rfl, fun D M _ ρ => rfl⟩
  | a :: as, bd, h => by
    obtain ⟨g, hg, hok, _, he⟩ := ofFm_ok (f := a) h.1
    obtain ⟨gs, hgs, hoks, hlen, hes⟩ := ofFms_ok (l := as) h.2
    refine ⟨g :: gs, by simp [ofFms, hg, hgs], ⟨hok, hoks⟩, by simp [hlen], fun D M hM ρ => ?_⟩
    simp only [SmtFm.evals, Fm.evals, he D M hM, hes D M hM]
end

/-! ### Concrete symbols -/

namespace Demo

inductive Sy
  | c | p | pair | fst | snd | ev | sub | not | eq | imp
  deriving DecidableEq

def K : SymInfo Sy where
  kind
    | .c | .p | .pair | .fst | .snd => .fn
    | .ev => .evaluate
    | .sub => .vampSub
    | .not => .not
    | .eq => .eq
    | .imp => .imp
  name
    | .c => "c$".toList
    | .p => "p$".toList
    | .pair => "t$".toList
    | .fst => "f$".toList
    | .snd => "s$".toList
    | .ev => "e$".toList
    | .sub => "r$".toList
    | .not | .eq | .imp => []
  insort
    | .c => some []
    | .p => some [.message]
    | .pair => some [.message, .message]
    | .fst | .snd => some [.message]
    | .ev => some [.message]
    | .sub => some [.message, .message]
    | _ => none
  outsort
    | .c => some .message
    | .p => some .bool
    | .pair => some .message
    | .fst | .snd => some .message
    | .ev => some .bitstring
    | .sub => some .bool
    | _ => none
  sortName
    | .bool => "Bool".toList
    | .message => "Message".toList
    | .condition => "Condition".toList
    | .step => "Time".toList
    | .name => "Name".toList
    | .bitstring => "Bitstring".toList
    | .index => "Index".toList
    | .user n => 'u' :: '$' :: Nat.toDigits 10 n

theorem toDigits_ok (n : Nat) : ∀ c ∈ Nat.toDigits 10 n, nameChar c = true := fun c hc =>
  digit_nameChar (Nat.isDigit_of_mem_toDigits (by decide) (by decide) hc)

theorem sort_ok (s : Srt) : NameOK (K.sortName s) := by
  cases s with
  | user n =>
    refine ⟨by simp [K], ?_⟩
    intro c hc
    simp only [K, List.mem_cons] at hc
    rcases hc with rfl | rfl | hc
    · decide
    · decide
    · exact toDigits_ok n c hc
  | _ => decide

theorem names : Names K where
  ok f h := by cases f <;> first | decide | simp [K, SKind.isFn] at h
  res f h := by cases f <;> decide
  var f v h := by
    cases f <;> first
      | (simp [K, SKind.isFn] at h; done)
      | (intro he
         have : (vn K v)[1]? = some 'X' := by
           unfold vn SymInfo.varName
           cases hs : K.sortName v.sort with
           | nil => exact absurd hs (sort_ok v.sort).1
           | cons a l => rfl
         rw [← he] at this
         exact absurd this (by decide))
  sortOK := sort_ok
  inj f g hf hg h := by
    cases f <;> cases g <;> first
      | rfl
      | (exact absurd hf (by decide))
      | (exact absurd hg (by decide))
      | (exact absurd h (by decide))
  sortInj s t h := by
    cases s <;> cases t <;> first
      | rfl
      | (exact absurd h (by decide))
      | (simp [K] at h; done)
      | (simp only [K, List.cons.injEq, true_and] at h
         rename_i n m
         have := congrArg (Nat.ofDigitChars 10 · 0) h
         simpa [Nat.ofDigitChars_ten_toDigits] using this)

def x : Var := ⟨0, .message⟩
def y : Var := ⟨1, .message⟩

/-- `∀ x, p(x)`. -/
def allP : Fm Sy := .quant .all [x] (.app .p [.var x])
/-- `p(pair(c, c))`. -/
def q : Fm Sy := .app .p [.app .pair [.app .c [], .app .c []]]

/-- `C15_text` applies, in both realms, to a formula with a quantifier, a no-op and nesting. -/
example (ev : Bool) : OK K ev [] (.all [x] (.imp (.fn .p [.var x])
    (.neq [.fn .ev [.var x], .fn .ev [.fn .c []]]))) := by
  simp [OK, OKs, K, x, SKind.isFn]
example : disp K true (.all [x] (.imp (.fn .p [.var x]) (.neq [.fn .ev [.var x], .fn .ev [.fn .c []]]))) =
    some "(forall ((MX0 Message) ) (=> (p$ MX0 ) (distinct MX0 c$  )))".toList := by decide +kernel
example : disp K false (.all [x] (.imp (.fn .p [.var x]) (.neq [.fn .ev [.var x], .fn .ev [.fn .c []]]))) =
    some "(forall ((MX0 Message) ) (=> (p$ MX0 ) (distinct (e$ MX0 ) (e$ c$  ) )))".toList := by
  decide +kernel

end Demo

end SmtM
end CV
