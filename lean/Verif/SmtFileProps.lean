import Verif.SmtProps
set_option linter.unusedSimpArgs false
set_option linter.unusedVariables false
/-
C14: unsatisfiability of the emitted file is entailment of the query.
-/
namespace CV
namespace SmtM
open SmtS (Tok SExp lex parse read Interp Env sem sems appS quantS binder flush ws cmdSem Typed DataSem
  SubtermSem chainEq noEnv atomOf consOf sortOf conssOf)
open Classical

variable {F D : Type}

/-! ### SPECIFICATION: meaning of a problem -/

/-- What an assertion asks of a structure. -/
def axSem (M : Str F D) : Ax F → Prop
  | .comment _ => True
  | .base f | .theory f | .ground _ f => ∀ ρ, Fm.holds M ρ f
  | .query f => ∀ ρ, ¬ Fm.holds M ρ f
  | .rewrite _ vs pre post => ∀ ρ, quantVal M .all vs (fun ρ' => pre.eval M ρ' = post.eval M ρ') ρ

/-- What a declaration asks of a structure. -/
def declSem (K : SymInfo F) (M : Str F D) : Decl F → Prop
  | .sort s => ∃ d, M.dom s d
  | .alias a b => ∀ d, M.dom b d ↔ M.dom a d
  | .free f => ∀ ss s, K.insort f = some ss → K.outsort f = some s →
      ∀ as, Typed M.dom ss as → M.dom s (M.fn f as)
  | .subterm f gs => SubtermSem M.fn M.truth f gs
  | .datatypes l => ∀ p ∈ l, DataSem M.fn M.dom p.1
      (p.2.map fun c => (c.1, c.2.zip ((K.insort c.1).getD [])))

/-! ### Well-formed files -/

def rwOK (K : SymInfo F) : RwKind F → Prop
  | .bool => True
  | .other f => (K.kind f).isFn

def AxOK (K : SymInfo F) (ev : Bool) : Ax F → Prop
  | .comment s => '\n' ∉ s
  | .base f | .theory f | .ground _ f | .query f => FmOK K ev [] f
  | .rewrite k vs pre post => rwOK K k ∧ FmOK K ev vs.reverse pre ∧ FmOK K ev vs.reverse post

/-- One constructor with its destructors. -/
structure ConsOK (K : SymInfo F) (s : Srt) (c : F × List F) : Prop where
  kind : K.kind c.1 = .fn
  out : K.outsort c.1 = some s
  ins : ∃ ss, K.insort c.1 = some ss ∧ ss.length = c.2.length
  dest : ∀ d ∈ c.2, K.kind d = .fn

/-- `ds` are all the declarations of the file: in the evaluated realm the sorts related by an
`evaluate` function are aliased. -/
def DeclOK (K : SymInfo F) (ev : Bool) (ds : List (Decl F)) : Decl F → Prop
  | .sort _ | .alias _ _ => True
  | .free f => (K.kind f).isFn ∧ (∃ ss, K.insort f = some ss) ∧ (∃ s, K.outsort f = some s) ∧
      (ev = true → K.kind f = .evaluate → ∃ a b, K.insort f = some [a] ∧ K.outsort f = some b ∧
        (.alias a b ∈ ds ∨ .alias b a ∈ ds))
  | .subterm f gs => (K.kind f = .fn ∨ K.kind f = .vampSub) ∧ ∀ g ∈ gs, K.kind g = .fn
  | .datatypes l => ∀ p ∈ l, ∀ c ∈ p.2, ConsOK K p.1 c

structure FileOK (K : SymInfo F) (ev : Bool) (g : GenFile F) : Prop where
  ax : ∀ a ∈ g.assertions, AxOK K ev a
  decl : ∀ d ∈ g.declarations, DeclOK K ev g.declarations d

/-! ### Reading the commands -/

/-- The text of commands: reads as the s-expressions, whatever follows. -/
def CmdLex (t : Txt) (es : List SExp) : Prop :=
  ∀ rest, lex (some []) (t ++ rest) = tokss es ++ lex (some []) rest

theorem CmdLex.append {t t' : Txt} {es es' : List SExp} (h : CmdLex t es) (h' : CmdLex t' es') :
    CmdLex (t ++ t') (es ++ es') := by
  intro rest
  rw [List.append_assoc, h, h', tokss_append, List.append_assoc]

theorem CmdLex.nil : CmdLex [] [] := fun rest => by simp [tokss]
theorem CmdLex.nl : CmdLex ['\n'] [] := fun rest => by simp [tokss, lex_nl]

theorem CmdLex.read {t : Txt} {es : List SExp} (h : CmdLex t es) : read t = some es := by
  apply read_of_lex
  have := h []
  simpa [lex, flush] using this

/-- `(kw formula)` and a newline. -/
theorem cmd1 {k t : Txt} {e : SExp} (hk : NameOK k) (h : LexTo t (toks e)) :
    CmdLex ('(' :: k ++ ' ' :: t ++ ")\n".toList) [.list [.atom k, e]] := by
  intro rest
  have e' : ∀ x, ")\n".toList ++ x = ')' :: '\n' :: x := by simp
  simp only [List.cons_append, List.append_assoc]
  rw [lex_lp, lex_name hk (delim_sp _), lex_sp, e', h _ (delim_rp _), lex_rp, lex_nl]
  simp [toks, tokss]

theorem spaced_names {l : List Txt} (h : ∀ n ∈ l, NameOK n) (rest : Txt) :
    lex (some []) (spaced l ++ rest) = tokss (l.map .atom) ++ lex (some []) rest := by
  apply spaced_lex
  induction l with
  | nil => exact .nil
  | cons n l ih =>
    exact .cons (by simpa [toks] using LexTo.name (h n (by simp))) (ih (fun m hm => h m (by simp [hm])))

/-- What the text of a constructor reads as. -/
def sxCons (K : SymInfo F) (c : F × List F) : SExp :=
  .list (.atom (K.name c.1) :: (c.2.zip ((K.insort c.1).getD [])).map
    fun p => .list [.atom (K.name p.1), .atom (K.sortName p.2)])

theorem dispDest_lex {K : SymInfo F} (hK : Names K) : ∀ (ss : List Srt) (ds : List F),
    ss.length = ds.length → (∀ d ∈ ds, K.kind d = .fn) → ∃ t, dispDest K ss ds = some t ∧
      CmdLex t ((ds.zip ss).map fun p => .list [.atom (K.name p.1), .atom (K.sortName p.2)])
  | [], [], _, _ => ⟨[], rfl, CmdLex.nil⟩
  | s :: ss, d :: ds, hl, hd => by
    obtain ⟨t, ht, hlx⟩ := dispDest_lex hK ss ds (by simpa using hl) (fun x hx => hd x (by simp [hx]))
    refine ⟨_, by simp only [dispDest, ht, Option.map_some]; rfl, ?_⟩
    intro rest
    have hfn : (K.kind d).isFn = true := by simp [hd d (by simp), SKind.isFn]
    simp only [List.cons_append, List.append_assoc, List.nil_append]
    rw [lex_lp, lex_name (hK.ok d hfn) (delim_sp _), lex_sp, lex_name (hK.sortOK s) (delim_rp _), lex_rp,
      lex_sp, hlx]
    simp [toks, tokss]

theorem dispCons_lex {K : SymInfo F} (hK : Names K) {s : Srt} {c : F × List F} (h : ConsOK K s c) :
    ∃ t, dispCons K s c = some t ∧ CmdLex t [sxCons K c] := by
  obtain ⟨ss, hss, hlen⟩ := h.ins
  obtain ⟨t, ht, hlx⟩ := dispDest_lex hK ss c.2 hlen h.dest
  refine ⟨_, by simp only [dispCons, h.out, if_true, hss, Option.bind_some, ht, Option.map_some]; rfl, ?_⟩
  intro rest
  have hfn : (K.kind c.1).isFn = true := by simp [h.kind, SKind.isFn]
  have e : ∀ x, "\t\t\t(".toList ++ x = '\t' :: '\t' :: '\t' :: '(' :: x := by simp
  have e' : ∀ x, ")\n".toList ++ x = ')' :: '\n' :: x := by simp
  simp only [List.append_assoc]
  rw [e, lex_tab, lex_tab, lex_tab, lex_lp]
  simp only [List.cons_append, List.append_assoc]
  rw [lex_name (hK.ok _ hfn) (delim_sp _), lex_sp, hlx, e', lex_rp, lex_nl]
  simp [sxCons, toks, tokss, hss]

theorem mapO_lex {α : Type} {f : α → Option Txt} {g : α → SExp} : ∀ {l : List α},
    (∀ a ∈ l, ∃ t, f a = some t ∧ CmdLex t [g a]) →
    ∃ ts, mapO f l = some ts ∧ CmdLex ts.flatten (l.map g)
  | [], _ => ⟨[], rfl, CmdLex.nil⟩
  | a :: l, h => by
    obtain ⟨t, ht, hl⟩ := h a (by simp)
    obtain ⟨ts, hts, hls⟩ := mapO_lex (l := l) (fun x hx => h x (by simp [hx]))
    exact ⟨t :: ts, by simp [mapO, ht, hts], by simpa using hl.append hls⟩

theorem dispConss_lex {K : SymInfo F} (hK : Names K) : ∀ (l : List (Srt × List (F × List F))),
    (∀ p ∈ l, ∀ c ∈ p.2, ConsOK K p.1 c) →
    ∃ t, dispConss K (l.map (·.1)) (l.map (·.2)) = some t ∧
      CmdLex t (l.map fun p => .list (p.2.map (sxCons K)))
  | [], _ => ⟨[], rfl, CmdLex.nil⟩
  | p :: l, h => by
    obtain ⟨t, ht, hl⟩ := dispConss_lex hK l (fun x hx => h x (by simp [hx]))
    obtain ⟨ts, hts, hls⟩ := mapO_lex (f := dispCons K p.1) (g := sxCons K) (l := p.2)
      (fun c hc => dispCons_lex hK (h p (by simp) c hc))
    refine ⟨_, by simp only [List.map_cons, dispConss, hts, Option.bind_some, ht, Option.map_some]; rfl, ?_⟩
    intro rest
    have e : ∀ x, "\t\t(\n".toList ++ x = '\t' :: '\t' :: '(' :: '\n' :: x := by simp
    have e' : ∀ x, "\t\t)\n".toList ++ x = '\t' :: '\t' :: ')' :: '\n' :: x := by simp
    simp only [List.append_assoc]
    rw [e, lex_tab, lex_tab, lex_lp, lex_nl, hls, e', lex_tab, lex_tab, lex_rp, lex_nl, hl]
    simp [toks, tokss]

theorem sorts_lex {K : SymInfo F} (hK : Names K) (l : List Srt) :
    CmdLex (l.flatMap (fun s => '(' :: K.sortName s ++ " 0) ".toList))
      (l.map fun s => .list [.atom (K.sortName s), .atom "0".toList]) := by
  induction l with
  | nil => exact CmdLex.nil
  | cons s l ih =>
    rw [List.flatMap_cons]
    refine CmdLex.append (es := [_]) ?_ ih
    intro rest
    have e : ∀ x, " 0) ".toList ++ x = ' ' :: ("0".toList ++ ')' :: ' ' :: x) := by simp
    simp only [List.cons_append, List.append_assoc]
    rw [lex_lp, e, lex_name (hK.sortOK s) (delim_sp _), lex_sp, lex_name (by decide) (delim_rp _), lex_rp,
      lex_sp]
    simp [toks, tokss]

/-- The s-expressions a declaration reads as. -/
def sxDecl (K : SymInfo F) : Decl F → SExp
  | .sort s => .list [.atom "declare-sort".toList, .atom (K.sortName s), .atom "0".toList]
  | .alias a b => .list [.atom "define-sort".toList, .atom (K.sortName b), .list [], .atom (K.sortName a)]
  | .free f => .list [.atom "declare-fun".toList, .atom (K.name f),
      .list ((((K.insort f).getD []).map K.sortName).map .atom), .atom (K.sortName ((K.outsort f).getD .bool))]
  | .subterm f gs => .list (.atom "declare-subterm-relation".toList :: .atom (K.name f) ::
      (gs.map K.name).map .atom)
  | .datatypes l => .list [.atom "declare-datatypes".toList,
      .list ((l.map (·.1)).map fun s => .list [.atom (K.sortName s), .atom "0".toList]),
      .list (l.map fun p => .list (p.2.map (sxCons K)))]

theorem decl_lex {K : SymInfo F} (hK : Names K) {ev : Bool} {ds : List (Decl F)} {d : Decl F}
    (h : DeclOK K ev ds d) : ∃ t, dispSmt K ev (ofDecl d) = some t ∧ CmdLex t [sxDecl K d] := by
  have enl : ∀ x, ")\n".toList ++ x = ')' :: '\n' :: x := by simp
  cases d with
  | sort s =>
    refine ⟨_, rfl, ?_⟩
    intro rest
    have e : ∀ x, "(declare-sort ".toList ++ x = '(' :: ("declare-sort".toList ++ ' ' :: x) := by simp
    have e' : ∀ x, " 0)\n".toList ++ x = ' ' :: ("0".toList ++ ')' :: '\n' :: x) := by simp
    simp only [List.append_assoc]
    rw [e, lex_lp, lex_name (by decide) (delim_sp _), lex_sp, e', lex_name (hK.sortOK s) (delim_sp _),
      lex_sp, lex_name (by decide) (delim_rp _), lex_rp, lex_nl]
    simp [sxDecl, toks, tokss]
  | «alias» a b =>
    refine ⟨_, rfl, ?_⟩
    intro rest
    have e : ∀ x, "(define-sort ".toList ++ x = '(' :: ("define-sort".toList ++ ' ' :: x) := by simp
    have e' : ∀ x, " () ".toList ++ x = ' ' :: '(' :: ')' :: ' ' :: x := by simp
    simp only [List.append_assoc]
    rw [e, lex_lp, lex_name (by decide) (delim_sp _), lex_sp, e', lex_name (hK.sortOK b) (delim_sp _),
      lex_sp, lex_lp, lex_rp, lex_sp, enl, lex_name (hK.sortOK a) (delim_rp _), lex_rp, lex_nl]
    simp [sxDecl, toks, tokss]
  | free f =>
    obtain ⟨hfn, ⟨ss, hss⟩, ⟨s, hs⟩, _⟩ := h
    refine ⟨_, by simp only [ofDecl, dispSmt, hss, hs, Option.bind_some, Option.map_some]; rfl, ?_⟩
    intro rest
    have e : ∀ x, "(declare-fun ".toList ++ x = '(' :: ("declare-fun".toList ++ ' ' :: x) := by simp
    have e' : ∀ x, " (".toList ++ x = ' ' :: '(' :: x := by simp
    have e'' : ∀ x, ") ".toList ++ x = ')' :: ' ' :: x := by simp
    have hss' : ∀ n ∈ ss.map K.sortName, NameOK n := by
      intro n hn; simp only [List.mem_map] at hn; obtain ⟨s, _, rfl⟩ := hn; exact hK.sortOK s
    simp only [List.append_assoc]
    rw [e, lex_lp, lex_name (by decide) (delim_sp _), lex_sp, e', lex_name (hK.ok f hfn) (delim_sp _),
      lex_sp, lex_lp, spaced_names hss', e'', lex_rp, lex_sp, enl, lex_name (hK.sortOK s) (delim_rp _),
      lex_rp, lex_nl]
    simp [sxDecl, toks, tokss, hss, hs]
  | subterm f gs =>
    obtain ⟨hf, hgs⟩ := h
    have hfn : (K.kind f).isFn = true := by rcases hf with hf | hf <;> simp [hf, SKind.isFn]
    refine ⟨_, rfl, ?_⟩
    intro rest
    have e : ∀ x, "(declare-subterm-relation ".toList ++ x =
      '(' :: ("declare-subterm-relation".toList ++ ' ' :: x) := by simp
    have hss' : ∀ n ∈ gs.map K.name, NameOK n := by
      intro n hn; simp only [List.mem_map] at hn; obtain ⟨g, hg, rfl⟩ := hn
      exact hK.ok g (by simp [hgs g hg, SKind.isFn])
    simp only [List.append_assoc]
    rw [e, lex_lp, lex_name (by decide) (delim_sp _), lex_sp]
    simp only [List.cons_append, List.append_assoc]
    rw [lex_name (hK.ok f hfn) (delim_sp _), lex_sp, spaced_names hss', enl, lex_rp, lex_nl]
    simp [sxDecl, toks, tokss]
  | datatypes l =>
    obtain ⟨t, ht, hl⟩ := dispConss_lex hK l h
    refine ⟨_, by simp only [ofDecl, dispSmt, ht, Option.map_some]; rfl, ?_⟩
    intro rest
    have e : ∀ x, "(declare-datatypes\n".toList ++ x = '(' :: ("declare-datatypes".toList ++ '\n' :: x) := by
      simp
    have e' : ∀ x, "\t(".toList ++ x = '\t' :: '(' :: x := by simp
    have e'' : ∀ x, ")\n\t(\n".toList ++ x = ')' :: '\n' :: '\t' :: '(' :: '\n' :: x := by simp
    have e3 : ∀ x, "\t)\n)\n".toList ++ x = '\t' :: ')' :: '\n' :: ')' :: '\n' :: x := by simp
    simp only [List.append_assoc]
    rw [e, lex_lp, lex_name (by decide) (delim_nl _), lex_nl, e', lex_tab, lex_lp, sorts_lex hK _, e'', lex_rp,
      lex_nl, lex_tab, lex_lp, lex_nl, hl, e3, lex_tab, lex_rp, lex_nl, lex_rp, lex_nl]
    simp [sxDecl, toks, tokss]

/-- The command prints, reads back, and asks of an interpretation that `P` holds of the structure it
reads as. -/
def Good (K : SymInfo F) (ev : Bool) (c : Smt F) (es : List SExp)
    (P : ∀ (D : Type) (_ : Str F D), Prop) : Prop :=
  ∃ t, dispSmt K ev c = some t ∧ CmdLex t es ∧
    ∀ (D : Type) (I : Interp D) (M : Str F D), Reads K ev I M → ((∀ e ∈ es, cmdSem I e) ↔ P D M)

theorem good_assert {K : SymInfo F} (hK : Names K) {ev : Bool} {g : SmtFm F} (h : OK K ev [] g) :
    Good K ev (.assert g) [.list [.atom "assert".toList, sx K ev g]]
      (fun D M => ∀ ρ, M.truth (g.eval M ρ)) := by
  obtain ⟨t, ht, hl⟩ := disp_lex hK h
  refine ⟨_, by simp only [dispSmt, ht, Option.map_some]; rfl, ?_, ?_⟩
  · simpa using cmd1 (k := "assert".toList) (by decide) hl
  · intro D I M hR
    have hs : ∀ ρ, sem I (sx K ev g) noEnv = g.eval M ρ := fun ρ => sem_sx hK hR h (rel_nil K ρ)
    have hc : cmdSem I (.list [.atom "assert".toList, sx K ev g]) ↔
      I.truth (sem I (sx K ev g) noEnv) := by simp [cmdSem]
    simp only [List.mem_singleton, forall_eq, hc, hR.truth]
    exact ⟨fun h ρ => by rw [← hs ρ]; exact h, fun h => by
      rw [hs (fun _ => M.ofProp True)]; exact h _⟩

theorem good_assertTh {K : SymInfo F} (hK : Names K) {ev : Bool} {g : SmtFm F} (h : OK K ev [] g) :
    Good K ev (.assertTh g) [.list [.atom "assert-theory".toList, sx K ev g]]
      (fun D M => ∀ ρ, M.truth (g.eval M ρ)) := by
  obtain ⟨t, ht, hl⟩ := disp_lex hK h
  refine ⟨_, by simp only [dispSmt, ht, Option.map_some]; rfl, ?_, ?_⟩
  · simpa using cmd1 (k := "assert-theory".toList) (by decide) hl
  · intro D I M hR
    have hs : ∀ ρ, sem I (sx K ev g) noEnv = g.eval M ρ := fun ρ => sem_sx hK hR h (rel_nil K ρ)
    have hc : cmdSem I (.list [.atom "assert-theory".toList, sx K ev g]) ↔
      I.truth (sem I (sx K ev g) noEnv) := by simp [cmdSem]
    simp only [List.mem_singleton, forall_eq, hc, hR.truth]
    exact ⟨fun h ρ => by rw [← hs ρ]; exact h, fun h => by
      rw [hs (fun _ => M.ofProp True)]; exact h _⟩

theorem good_assertNot {K : SymInfo F} (hK : Names K) {ev : Bool} {g : SmtFm F} (h : OK K ev [] g) :
    Good K ev (.assertNot g) [.list [.atom "assert-not".toList, sx K ev g]]
      (fun D M => ∀ ρ, ¬ M.truth (g.eval M ρ)) := by
  obtain ⟨t, ht, hl⟩ := disp_lex hK h
  refine ⟨_, by simp only [dispSmt, ht, Option.map_some]; rfl, ?_, ?_⟩
  · simpa using cmd1 (k := "assert-not".toList) (by decide) hl
  · intro D I M hR
    have hs : ∀ ρ, sem I (sx K ev g) noEnv = g.eval M ρ := fun ρ => sem_sx hK hR h (rel_nil K ρ)
    have hc : cmdSem I (.list [.atom "assert-not".toList, sx K ev g]) ↔
      ¬ I.truth (sem I (sx K ev g) noEnv) := by simp [cmdSem]
    simp only [List.mem_singleton, forall_eq, hc, hR.truth]
    exact ⟨fun h ρ => by rw [← hs ρ]; exact h, fun h => by
      rw [hs (fun _ => M.ofProp True)]; exact h _⟩

theorem good_assertGround {K : SymInfo F} (hK : Names K) {ev : Bool} {g : SmtFm F} (h : OK K ev [] g)
    (s : Srt) :
    Good K ev (.assertGround s g)
      [.list [.atom "assert-ground".toList, .atom (K.sortName s), sx K ev g]]
      (fun D M => ∀ ρ, M.truth (g.eval M ρ)) := by
  obtain ⟨t, ht, hl⟩ := disp_lex hK h
  refine ⟨_, by simp only [dispSmt, ht, Option.map_some]; rfl, ?_, ?_⟩
  · intro rest
    have e : ∀ x, "(assert-ground ".toList ++ x = '(' :: ("assert-ground".toList ++ ' ' :: x) := by simp
    have e' : ∀ x, ")\n".toList ++ x = ')' :: '\n' :: x := by simp
    simp only [List.append_assoc, List.cons_append]
    rw [e, lex_lp, lex_name (by decide) (delim_sp _), lex_sp, lex_name (hK.sortOK s) (delim_sp _), lex_sp,
      e', hl _ (delim_rp _), lex_rp, lex_nl]
    simp [toks, tokss]
  · intro D I M hR
    have hs : ∀ ρ, sem I (sx K ev g) noEnv = g.eval M ρ := fun ρ => sem_sx hK hR h (rel_nil K ρ)
    have hc : cmdSem I (.list [.atom "assert-ground".toList, .atom (K.sortName s), sx K ev g]) ↔
      I.truth (sem I (sx K ev g) noEnv) := by simp [cmdSem]
    simp only [List.mem_singleton, forall_eq, hc, hR.truth]
    exact ⟨fun h ρ => by rw [← hs ρ]; exact h, fun h => by
      rw [hs (fun _ => M.ofProp True)]; exact h _⟩

theorem good_rewrite {K : SymInfo F} (hK : Names K) {ev : Bool} {k : RwKind F} (hk : rwOK K k)
    {vs : List Var} {l r : SmtFm F} (hl : OK K ev vs.reverse l) (hr : OK K ev vs.reverse r) :
    ∃ e, Good K ev (.declRw k vs l r) [e]
      (fun D M => ∀ ρ, quantVal M .all vs (fun ρ' => l.eval M ρ' = r.eval M ρ') ρ) := by
  obtain ⟨t, ht, hlx⟩ := disp_lex hK hl
  obtain ⟨t', ht', hlx'⟩ := disp_lex hK hr
  obtain ⟨b, hb, hlb⟩ := dispVars_lex hK vs
  obtain ⟨op, hopk⟩ : ∃ op, rwName K k = op := ⟨_, rfl⟩
  have hop : NameOK op := by
    subst hopk
    cases k with
    | bool => exact (by decide : NameOK "=".toList)
    | other f => exact hK.ok f hk
  refine ⟨.list [.atom "declare-rewrite".toList, .list [.atom "forall".toList, .list (vs.map (sxVar K)),
    .list [.atom op, sx K ev l, sx K ev r]]], _,
    by simp only [dispSmt, ht, ht', hb, hopk, Option.bind_some, Option.map_some]; rfl, ?_, ?_⟩
  · intro rest
    have e : ∀ x, "(declare-rewrite (forall (".toList ++ x =
      '(' :: ("declare-rewrite".toList ++ ' ' :: '(' :: ("forall".toList ++ ' ' :: '(' :: x)) := by simp
    have e' : ∀ x, ") (".toList ++ x = ')' :: ' ' :: '(' :: x := by simp
    have e'' : ∀ x, ")))\n".toList ++ x = ')' :: ')' :: ')' :: '\n' :: x := by simp
    simp only [List.append_assoc, List.cons_append]
    rw [e, lex_lp, lex_name (by decide) (delim_sp _), lex_sp, lex_lp, lex_name (by decide) (delim_sp _),
      lex_sp, lex_lp, hlb, e', lex_rp, lex_sp, lex_lp, lex_name hop (delim_sp _), lex_sp,
      hlx _ (delim_sp _), lex_sp, e'', hlx' _ (delim_rp _), lex_rp, lex_rp, lex_rp, lex_nl]
    simp [toks, tokss]
  · intro D I M hR
    have hc : cmdSem I (.list [.atom "declare-rewrite".toList, .list [.atom "forall".toList,
        .list (vs.map (sxVar K)), .list [.atom op, sx K ev l, sx K ev r]]]) ↔
        quantS I .all ((vs.map (sxVar K)).filterMap binder)
          (fun e => sem I (sx K ev l) e = sem I (sx K ev r) e) noEnv := by
      have h1 : ¬ ("declare-rewrite".toList = "assert".toList ∨
        "declare-rewrite".toList = "assert-theory".toList) := by decide
      have h2 : "declare-rewrite".toList ≠ "assert-not".toList := by decide
      simp only [cmdSem, h1, h2, if_false, if_true]
    simp only [List.mem_singleton, forall_eq]
    rw [hc, filterMap_binder]
    have key : ∀ ρ, quantVal M .all vs (fun ρ' => l.eval M ρ' = r.eval M ρ') ρ ↔
        quantS I .all (vs.map fun v => (vn K v, K.sortName v.sort))
          (fun e => sem I (sx K ev l) e = sem I (sx K ev r) e) noEnv := by
      intro ρ
      apply quant_agree hK hR .all _ _ vs [] ρ noEnv (rel_nil K ρ)
      intro ρ' e' hr'
      rw [List.append_nil] at hr'
      rw [sem_sx hK hR hl hr', sem_sx hK hR hr hr']
    exact ⟨fun h ρ => (key ρ).2 h, fun h => (key (fun _ => M.ofProp True)).1 (h _)⟩

theorem quantVal_congr (M : Str F D) (q : QKind) (vs : List Var) {P Q : Valn D → Prop}
    (h : ∀ ρ, P ρ ↔ Q ρ) (ρ : Valn D) : quantVal M q vs P ρ ↔ quantVal M q vs Q ρ := by
  rw [show P = Q from funext fun ρ => propext (h ρ)]

/-- What an assertion reads as, and what this asks of an interpretation. -/
theorem ax_lex {K : SymInfo F} (hK : Names K) {o : Opts} {a : Ax F} (h : AxOK K o.evaluated a) :
    ∃ c t es, ofAx K o a = some c ∧ dispSmt K o.evaluated c = some t ∧ CmdLex t es ∧
      ∀ (D : Type) (I : Interp D) (M : Str F D), Reads K o.evaluated I M → Std K M →
        ((∀ e ∈ es, cmdSem I e) ↔ axSem M a) := by
  cases a with
  | comment s =>
    refine ⟨_, _, [], rfl, rfl, ?_, fun D I M _ _ => by simp [axSem]⟩
    intro rest
    have e : ∀ x, "\n; ".toList ++ x = '\n' :: ';' :: ' ' :: x := by simp
    have e' : ∀ x, "\n\n".toList ++ x = '\n' :: '\n' :: x := by simp
    simp only [List.append_assoc]
    rw [e, lex_nl, lex_semi, e']
    have h2 : '\n' ∉ ' ' :: s := by simpa [AxOK] using h
    have := lex_comment (' ' :: s) ('\n' :: rest) h2
    rw [List.cons_append] at this
    rw [this, lex_nl]
    simp [tokss]
  | base f =>
    obtain ⟨g, hg, hok, _, he⟩ := ofFm_ok (f := f) h
    obtain ⟨t, ht, hl, hs⟩ := good_assert hK hok
    refine ⟨_, t, _, by simp only [ofAx, hg, Option.map_some], ht, hl, fun D I M hR hM => ?_⟩
    rw [hs D I M hR]; simp only [he D M hM, axSem, Fm.holds]
  | theory f =>
    obtain ⟨g, hg, hok, _, he⟩ := ofFm_ok (f := f) h
    cases ho : o.assertTheory with
    | true =>
      obtain ⟨t, ht, hl, hs⟩ := good_assertTh hK hok
      refine ⟨_, t, _, by simp only [ofAx, hg, Option.map_some, ho, if_true], ht, hl,
        fun D I M hR hM => ?_⟩
      rw [hs D I M hR]; simp only [he D M hM, axSem, Fm.holds]
    | false =>
      obtain ⟨t, ht, hl, hs⟩ := good_assert hK hok
      refine ⟨_, t, _, by simp only [ofAx, hg, Option.map_some, ho, if_false, Bool.false_eq_true], ht, hl,
        fun D I M hR hM => ?_⟩
      rw [hs D I M hR]; simp only [he D M hM, axSem, Fm.holds]
  | ground s f =>
    obtain ⟨g, hg, hok, _, he⟩ := ofFm_ok (f := f) h
    cases ho : o.assertGround with
    | true =>
      obtain ⟨t, ht, hl, hs⟩ := good_assertGround hK hok s
      refine ⟨_, t, _, by simp only [ofAx, hg, Option.map_some, ho, if_true], ht, hl,
        fun D I M hR hM => ?_⟩
      rw [hs D I M hR]; simp only [he D M hM, axSem, Fm.holds]
    | false =>
      obtain ⟨t, ht, hl, hs⟩ := good_assert hK hok
      refine ⟨_, t, _, by simp only [ofAx, hg, Option.map_some, ho, if_false, Bool.false_eq_true], ht, hl,
        fun D I M hR hM => ?_⟩
      rw [hs D I M hR]; simp only [he D M hM, axSem, Fm.holds]
  | query f =>
    obtain ⟨g, hg, hok, _, he⟩ := ofFm_ok (f := f) h
    cases ho : o.assertNot with
    | true =>
      obtain ⟨t, ht, hl, hs⟩ := good_assertNot hK hok
      refine ⟨_, t, _, by simp only [ofAx, hg, Option.map_some, ho, if_true], ht, hl,
        fun D I M hR hM => ?_⟩
      rw [hs D I M hR]; simp only [he D M hM, axSem, Fm.holds]
    | false =>
      obtain ⟨t, ht, hl, hs⟩ := good_assert hK (g := .not g) hok
      refine ⟨_, t, _, by simp only [ofAx, hg, Option.map_some, ho, if_false, Bool.false_eq_true], ht, hl,
        fun D I M hR hM => ?_⟩
      rw [hs D I M hR]; simp only [SmtFm.eval, M.truth_ofProp, he D M hM, axSem, Fm.holds]
  | rewrite k vs pre post =>
    obtain ⟨g, hg, hok, _, he⟩ := ofFm_ok (f := pre) h.2.1
    obtain ⟨g', hg', hok', _, he'⟩ := ofFm_ok (f := post) h.2.2
    cases ho : o.noRewrite with
    | true =>
      have hok2 : OK K o.evaluated [] (.all vs (.eq [g, g'])) :=
        ⟨fun _ => trivial, by simpa [OK, OKs] using ⟨hok, hok'⟩⟩
      obtain ⟨t, ht, hl, hs⟩ := good_assert hK hok2
      refine ⟨_, t, _, by simp only [ofAx, hg, hg', Option.bind_some, Option.map_some, ho, if_true], ht, hl,
        fun D I M hR hM => ?_⟩
      rw [hs D I M hR]
      simp only [SmtFm.eval, SmtFm.evals, M.truth_ofProp, axSem]
      refine forall_congr' fun ρ => quantVal_congr M .all vs (fun ρ' => ?_) ρ
      rw [he D M hM, he' D M hM]
      constructor
      · intro h; exact h _ (by simp) _ (by simp)
      · intro h a ha b hb
        simp only [List.mem_cons, List.not_mem_nil, or_false] at ha hb
        rcases ha with rfl | rfl <;> rcases hb with rfl | rfl <;> simp [h]
    | false =>
      obtain ⟨e, t, ht, hl, hs⟩ := good_rewrite hK h.1 hok hok'
      refine ⟨_, t, _, by simp only [ofAx, hg, hg', Option.bind_some, Option.map_some, ho, if_false,
        Bool.false_eq_true], ht, hl, fun D I M hR hM => ?_⟩
      rw [hs D I M hR]
      simp only [axSem]
      exact forall_congr' fun ρ => quantVal_congr M .all vs (fun ρ' => by
        rw [he D M hM, he' D M hM]) ρ

/-! ### The whole file -/

/-! ### Meaning of the declarations -/

theorem typed_map {S S' D : Type} {dom : S → D → Prop} {dom' : S' → D → Prop} {m : S → S'}
    (h : ∀ s d, dom' (m s) d ↔ dom s d) : ∀ (ss : List S) (as : List D),
    Typed dom' (ss.map m) as ↔ Typed dom ss as
  | [], [] => Iff.rfl
  | [], _ :: _ => Iff.rfl
  | _ :: _, [] => Iff.rfl
  | s :: ss, a :: as => by
    simp only [List.map_cons, Typed, h, typed_map h ss as]

theorem data_map {N N' S S' D : Type} {fn : N → List D → D} {fn' : N' → List D → D}
    {dom : S → D → Prop} {dom' : S' → D → Prop} {n : N → N'} {m : S → S'}
    (hd : ∀ s d, dom' (m s) d ↔ dom s d) (s : S) (cs : List (N × List (N × S)))
    (hf : ∀ c ∈ cs, fn' (n c.1) = fn c.1 ∧ ∀ p ∈ c.2, fn' (n p.1) = fn p.1)
    (hi : ∀ c ∈ cs, ∀ c' ∈ cs, n c.1 = n c'.1 → c.1 = c'.1) :
    DataSem fn' dom' (m s) (cs.map fun c => (n c.1, c.2.map fun p => (n p.1, m p.2))) ↔
      DataSem fn dom s cs := by
  have ht : ∀ (l : List (N × S)) as, Typed dom' ((l.map fun p => (n p.1, m p.2)).map (·.2)) as ↔
      Typed dom (l.map (·.2)) as := by
    intro l as
    rw [← typed_map hd, List.map_map, List.map_map]; rfl
  constructor
  · intro h
    refine ⟨?_, ?_, ?_, ?_⟩
    · intro c hc as has
      have := h.typed _ (List.mem_map.2 ⟨c, hc, rfl⟩) as ((ht _ _).2 has)
      rw [hd] at this
      rw [← (hf c hc).1]; exact this
    · intro c hc c' hc' as bs has hbs he
      have := h.inj _ (List.mem_map.2 ⟨c, hc, rfl⟩) _ (List.mem_map.2 ⟨c', hc', rfl⟩) as bs
        ((ht _ _).2 has) ((ht _ _).2 hbs) (by simpa only [(hf c hc).1, (hf c' hc').1] using he)
      exact ⟨hi c hc c' hc' this.1, this.2⟩
    · intro d hdd
      obtain ⟨x, hx, as, has, he⟩ := h.cover d ((hd _ _).2 hdd)
      obtain ⟨c, hc, rfl⟩ := List.mem_map.1 hx
      exact ⟨c, hc, as, (ht _ _).1 has, by rw [← (hf c hc).1]; exact he⟩
    · intro c hc as has i p a hp ha
      have := h.dest _ (List.mem_map.2 ⟨c, hc, rfl⟩) as ((ht _ _).2 has) i (n p.1, m p.2) a
        (by simp [List.getElem?_map, hp]) ha
      rw [← (hf c hc).1, ← (hf c hc).2 p (List.mem_of_getElem? hp)]
      exact this
  · intro h
    refine ⟨?_, ?_, ?_, ?_⟩
    · intro x hx as has
      obtain ⟨c, hc, rfl⟩ := List.mem_map.1 hx
      rw [hd, (hf c hc).1]
      exact h.typed c hc as ((ht _ _).1 has)
    · intro x hx x' hx' as bs has hbs he
      obtain ⟨c, hc, rfl⟩ := List.mem_map.1 hx
      obtain ⟨c', hc', rfl⟩ := List.mem_map.1 hx'
      have := h.inj c hc c' hc' as bs ((ht _ _).1 has) ((ht _ _).1 hbs)
        (by simpa only [(hf c hc).1, (hf c' hc').1] using he)
      exact ⟨by simp only [this.1], this.2⟩
    · intro d hdd
      obtain ⟨c, hc, as, has, he⟩ := h.cover d ((hd _ _).1 hdd)
      exact ⟨_, List.mem_map.2 ⟨c, hc, rfl⟩, as, (ht _ _).2 has, by rw [(hf c hc).1]; exact he⟩
    · intro x hx as has i p a hp ha
      obtain ⟨c, hc, rfl⟩ := List.mem_map.1 hx
      simp only [List.getElem?_map, Option.map_eq_some_iff] at hp
      obtain ⟨p', hp', rfl⟩ := hp
      simp only [(hf c hc).1, (hf c hc).2 p' (List.mem_of_getElem? hp')]
      exact h.dest c hc as ((ht _ _).1 has) i p' a hp' ha

theorem filterMap_atom {α : Type} (g : α → Txt) (l : List α) :
    ((l.map g).map SExp.atom).filterMap atomOf = l.map g := by
  induction l with
  | nil => rfl
  | cons a l ih => simp only [List.map_cons, List.filterMap_cons, atomOf, ih]

theorem conssOf_sx (K : SymInfo F) (cs : List (F × List F)) :
    conssOf (.list (cs.map (sxCons K))) = (cs.map fun c => (c.1, c.2.zip ((K.insort c.1).getD []))).map
      fun c => (K.name c.1, c.2.map fun p => (K.name p.1, K.sortName p.2)) := by
  have hb : ∀ l : List (F × Srt), (l.map fun p => SExp.list [.atom (K.name p.1), .atom (K.sortName p.2)]).filterMap
      binder = l.map fun p => (K.name p.1, K.sortName p.2) := by
    intro l
    induction l with
    | nil => rfl
    | cons p l ih => simp only [List.map_cons, List.filterMap_cons, binder, ih]
  simp only [conssOf]
  induction cs with
  | nil => rfl
  | cons c cs ih =>
    simp only [List.map_cons, List.filterMap_cons, sxCons, consOf, hb]
    exact congrArg _ ih

theorem decl_sem {K : SymInfo F} (hK : Names K) {ev : Bool} {ds : List (Decl F)} {d : Decl F}
    (h : DeclOK K ev ds d) {I : Interp D} {M : Str F D} (hR : Reads K ev I M)
    (hd : ∀ f, d = .free f → I.fn (K.name f) = M.fn f) : cmdSem I (sxDecl K d) ↔ declSem K M d := by
  cases d with
  | sort s =>
    have e1 : "declare-sort".toList ≠ "assert-ground".toList := by decide
    have e2 : "declare-sort".toList ≠ "declare-fun".toList := by decide
    simp only [sxDecl, cmdSem, e1, e2, if_false, if_true, declSem, hR.dom]
  | «alias» a b =>
    have e1 : "define-sort".toList ≠ "assert-ground".toList := by decide
    have e2 : "define-sort".toList ≠ "declare-fun".toList := by decide
    have e3 : "define-sort".toList ≠ "declare-sort".toList := by decide
    simp only [sxDecl, cmdSem, e1, e2, e3, if_false, if_true, declSem, hR.dom]
  | free f =>
    obtain ⟨_, ⟨ss, hss⟩, ⟨s, hs⟩, _⟩ := h
    have e1 : "declare-fun".toList ≠ "assert-ground".toList := by decide
    simp only [sxDecl, cmdSem, e1, if_false, if_true, declSem, filterMap_atom, hss, hs, Option.getD_some,
      Option.some.injEq, hR.dom, hd f rfl]
    constructor
    · rintro h _ _ rfl rfl as has
      exact h as ((typed_map hR.dom _ _).2 has)
    · intro h as has
      exact h ss s rfl rfl as ((typed_map hR.dom _ _).1 has)
  | subterm f gs =>
    obtain ⟨hf, hgs⟩ := h
    have e1 : "declare-subterm-relation".toList ≠ "assert-ground".toList := by decide
    have e2 : "declare-subterm-relation".toList ≠ "declare-fun".toList := by decide
    have e3 : "declare-subterm-relation".toList ≠ "declare-sort".toList := by decide
    have e4 : "declare-subterm-relation".toList ≠ "define-sort".toList := by decide
    have e5 : ¬ ("declare-subterm-relation".toList = "assert".toList ∨
      "declare-subterm-relation".toList = "assert-theory".toList) := by decide
    have e6 : "declare-subterm-relation".toList ≠ "assert-not".toList := by decide
    have e7 : "declare-subterm-relation".toList ≠ "declare-rewrite".toList := by decide
    have key : SubtermSem I.fn I.truth (K.name f) (gs.map K.name) ↔ SubtermSem M.fn M.truth f gs := by
      simp only [SubtermSem, List.mem_map, forall_exists_index, and_imp, forall_apply_eq_imp_iff₂, hR.truth,
        hR.fn f hf]
      refine forall_congr' fun g => ?_
      refine forall_congr' fun hg => ?_
      simp only [hR.fn g (.inl (hgs g hg))]
    cases gs with
    | nil =>
      simp only [sxDecl, cmdSem, List.map_nil, e5, e6, e7, if_false, declSem, true_iff]
      exact fun g hg => by simp at hg
    | cons g gs =>
      have : cmdSem I (sxDecl K (.subterm f (g :: gs))) ↔
          SubtermSem I.fn I.truth (K.name f) ((((g :: gs).map K.name).map SExp.atom).filterMap atomOf) := by
        simp only [sxDecl, cmdSem, List.map_cons, e1, e2, e3, e4, if_false, if_true]
      rw [this, filterMap_atom]
      exact key
  | datatypes l =>
    have hs : ((l.map (·.1)).map fun s => SExp.list [.atom (K.sortName s), .atom "0".toList]).filterMap sortOf
        = l.map fun p => K.sortName p.1 := by
      clear h hd
      induction l with
      | nil => rfl
      | cons p l ih =>
        simp only [List.map_cons, List.filterMap_cons, sortOf]
        exact congrArg _ ih
    simp only [sxDecl, cmdSem, if_true, declSem, hs]
    rw [List.map_map, List.zip_map']
    simp only [List.mem_map, forall_exists_index, and_imp, forall_apply_eq_imp_iff₂]
    refine forall_congr' fun p => forall_congr' fun hp => ?_
    simp only [Function.comp]
    rw [conssOf_sx]
    have hc : ∀ c ∈ (p.2.map fun c => (c.1, c.2.zip ((K.insort c.1).getD []))),
        K.kind c.1 = .fn ∧ ∀ q ∈ c.2, K.kind q.1 = .fn := by
      intro x hx
      obtain ⟨c, hc, rfl⟩ := List.mem_map.1 hx
      exact ⟨(h p hp c hc).kind, fun q hq => (h p hp c hc).dest _ (List.of_mem_zip hq).1⟩
    apply data_map hR.dom
    · intro c hcc
      refine ⟨funext fun as => hR.fn _ (.inl (hc c hcc).1) as, fun q hq => funext fun as =>
        hR.fn _ (.inl ((hc c hcc).2 q hq)) as⟩
    · intro c hcc c' hcc' he
      exact hK.inj _ _ (by simp [(hc c hcc).1, SKind.isFn]) (by simp [(hc c' hcc').1, SKind.isFn]) he

/-! ### Structures and interpretations -/

/-- In the evaluated realm the `evaluate` functions are the identity. -/
def Noop (K : SymInfo F) (ev : Bool) (M : Str F D) : Prop :=
  ev = true → ∀ f, K.kind f = .evaluate → ∀ d, M.fn f [d] = d

/-- The structure an interpretation of the names gives. -/
noncomputable def strOf (K : SymInfo F) (ev : Bool) (I : Interp D) : Str F D where
  truth := I.truth
  ofProp := I.ofProp
  truth_ofProp := I.truth_ofProp
  dom s := I.dom (K.sortName s)
  fn f as := match K.kind f with
    | .fn | .vampSub => I.fn (K.name f) as
    | .evaluate => match ev, as with
      | true, [d] => d
      | _, _ => I.fn (K.name f) as
    | .tru => I.ofProp True
    | .fls => I.ofProp False
    | .and => I.ofProp (∀ a ∈ as, I.truth a)
    | .or => I.ofProp (∃ a ∈ as, I.truth a)
    | .eq => I.ofProp (∀ a ∈ as, ∀ b ∈ as, a = b)
    | .not => match as with
      | [a] => I.ofProp (¬ I.truth a)
      | _ => I.ofProp True
    | .imp => match as with
      | [a, b] => I.ofProp (I.truth a → I.truth b)
      | _ => I.ofProp True
    | .ite => match as with
      | [c, a, b] => if I.truth c then a else b
      | _ => I.ofProp True

theorem strOf_std (K : SymInfo F) (ev : Bool) (I : Interp D) : Std K (strOf K ev I) := by
  constructor <;> intro f hf <;> simp [strOf, hf]
  intro c a b
  by_cases h : I.truth c <;> simp [h]

theorem strOf_noop (K : SymInfo F) (ev : Bool) (I : Interp D) : Noop K ev (strOf K ev I) := by
  rintro rfl f hf d
  simp [strOf, hf]

theorem strOf_reads (K : SymInfo F) (ev : Bool) (I : Interp D) : Reads K ev I (strOf K ev I) where
  truth _ := Iff.rfl
  ofProp _ := rfl
  dom _ _ := Iff.rfl
  fn f hf as := by rcases hf with hf | hf <;> simp [strOf, hf]
  evalFn h f hf as := by subst h; simp [strOf, hf]
  evalNoop h f hf d := by subst h; simp [strOf, hf]

/-- The interpretation of the names a structure gives. -/
noncomputable def interpOf (K : SymInfo F) (M : Str F D) : Interp D where
  truth := M.truth
  ofProp := M.ofProp
  truth_ofProp := M.truth_ofProp
  dom n d := ∃ s, K.sortName s = n ∧ M.dom s d
  fn n as := if h : ∃ f, (K.kind f).isFn = true ∧ K.name f = n then M.fn h.choose as else M.ofProp True

theorem interpOf_fn {K : SymInfo F} (hK : Names K) (M : Str F D) {f : F} (hf : (K.kind f).isFn = true)
    (as : List D) : (interpOf K M).fn (K.name f) as = M.fn f as := by
  have h : ∃ g, (K.kind g).isFn = true ∧ K.name g = K.name f := ⟨f, hf, rfl⟩
  simp only [interpOf, dif_pos h]
  rw [hK.inj _ _ h.choose_spec.1 hf h.choose_spec.2]

theorem interpOf_reads {K : SymInfo F} (hK : Names K) {ev : Bool} {M : Str F D} (h : Noop K ev M) :
    Reads K ev (interpOf K M) M where
  truth _ := Iff.rfl
  ofProp _ := rfl
  dom s d := ⟨fun ⟨s', h', hd⟩ => hK.sortInj _ _ h' ▸ hd, fun hd => ⟨s, rfl, hd⟩⟩
  fn f hf as := interpOf_fn hK M (by rcases hf with hf | hf <;> simp [hf, SKind.isFn]) as
  evalFn _ f hf as := interpOf_fn hK M (by simp [hf, SKind.isFn]) as
  evalNoop := h

/-- SPECIFICATION: `M` is a model of the problem. -/
structure Models (K : SymInfo F) (ev : Bool) (M : Str F D) (g : GenFile F) : Prop where
  std : Std K M
  noop : Noop K ev M
  decl : ∀ d ∈ g.declarations, declSem K M d
  ax : ∀ a ∈ g.assertions, axSem M a

theorem mapO_some {α β : Type} {f : α → Option β} {P : α → β → Prop} : ∀ (l : List α),
    (∀ a ∈ l, ∃ b, f a = some b ∧ P a b) → ∃ bs, mapO f l = some bs ∧ List.Forall₂ P l bs
  | [], _ => ⟨[], rfl, .nil⟩
  | a :: l, h => by
    obtain ⟨b, hb, hp⟩ := h a (by simp)
    obtain ⟨bs, hbs, hps⟩ := mapO_some (P := P) l (fun x hx => h x (by simp [hx]))
    exact ⟨b :: bs, by simp [mapO, hb, hbs], .cons hp hps⟩

theorem checkSat_lex : CmdLex "(check-sat)\n".toList [.list [.atom "check-sat".toList]] := by
  intro rest
  have e : ∀ x, "(check-sat)\n".toList ++ x = '(' :: ("check-sat".toList ++ ')' :: '\n' :: x) := by simp
  rw [e, lex_lp, lex_name (by decide) (delim_rp _), lex_rp, lex_nl]
  simp [toks, tokss]

/-- The numbering comment above assertions. -/
theorem pre_lex (c : Smt F) (i : Nat) :
    CmdLex (if c.isAnyAssert then "; ".toList ++ Nat.toDigits 10 i ++ ['\n'] else []) [] := by
  cases c.isAnyAssert with
  | false => exact CmdLex.nil
  | true =>
    intro rest
    have e : ∀ x, "; ".toList ++ x = ';' :: ' ' :: x := by simp
    simp only [if_true, List.append_assoc]
    rw [e, lex_semi]
    have hn : '\n' ∉ ' ' :: Nat.toDigits 10 i := by
      intro hm
      simp only [List.mem_cons] at hm
      rcases hm with hm | hm
      · exact absurd hm (by decide)
      · exact absurd (Nat.isDigit_of_mem_toDigits (by decide) (by decide) hm) (by decide)
    have := lex_comment (' ' :: Nat.toDigits 10 i) rest hn
    simpa [tokss] using this

theorem file_step {K : SymInfo F} {ev : Bool} {c : Smt F} {l : List (Smt F)} {i : Nat} {t t' : Txt}
    {es es' : List SExp} (h1 : dispSmt K ev c = some t) (h2 : CmdLex t es)
    (h3 : dispFile K ev (if c.isAnyAssert then i + 1 else i) l = some t') (h4 : CmdLex t' es') :
    ∃ u, dispFile K ev i (c :: l) = some u ∧ CmdLex u (es ++ es') := by
  refine ⟨_, by simp only [dispFile, h1, h3, Option.bind_some, Option.map_some]; rfl, ?_⟩
  refine CmdLex.append ?_ h4
  have := CmdLex.append (CmdLex.append (pre_lex c i) h2) CmdLex.nl
  rwa [List.nil_append, List.append_nil] at this

/-- The command prints to expressions asking what the assertion asks. -/
def AxLex (K : SymInfo F) (ev : Bool) (a : Ax F) (c : Smt F) : Prop :=
  ∃ t es, dispSmt K ev c = some t ∧ CmdLex t es ∧
      ∀ (D : Type) (I : Interp D) (M : Str F D), Reads K ev I M → Std K M →
        ((∀ e ∈ es, cmdSem I e) ↔ axSem M a)

theorem mem_append_iff {α : Type} (P : α → Prop) (l l' : List α) :
    (∀ e ∈ l ++ l', P e) ↔ (∀ e ∈ l, P e) ∧ ∀ e ∈ l', P e := by
  simp only [List.mem_append]
  exact ⟨fun h => ⟨fun e he => h e (.inl he), fun e he => h e (.inr he)⟩,
    fun h e he => he.elim (h.1 e) (h.2 e)⟩

theorem axs_lex {K : SymInfo F} {ev : Bool} {aas : List (Ax F)} {cs : List (Smt F)}
    (ha : List.Forall₂ (AxLex K ev) aas cs) : ∀ i, ∃ t es, dispFile K ev i (cs ++ [.checkSat]) = some t ∧
      CmdLex t es ∧ ∀ (D : Type) (I : Interp D) (M : Str F D), Reads K ev I M → Std K M →
        ((∀ e ∈ es, cmdSem I e) ↔ ∀ a ∈ aas, axSem M a) := by
  induction ha with
  | nil =>
    intro i
    obtain ⟨u, hu, hl⟩ := file_step (K := K) (ev := ev) (c := .checkSat) (l := []) (i := i)
      (t := "(check-sat)\n".toList) (t' := []) rfl checkSat_lex rfl CmdLex.nil
    refine ⟨u, _, hu, hl, fun D I M _ _ => ?_⟩
    rw [List.append_nil]
    constructor
    · intro _ a ha; cases ha
    · intro _ e he
      rw [List.mem_singleton.1 he]
      exact (rfl : "check-sat".toList = "check-sat".toList)
  | cons hac _ ih =>
    intro i
    rename_i a c aas cs _
    obtain ⟨t, es, h1, h2, h3⟩ := hac
    obtain ⟨t', es', h4, h5, h6⟩ := ih (if c.isAnyAssert then i + 1 else i)
    obtain ⟨u, hu, hl⟩ := file_step h1 h2 h4 h5
    refine ⟨u, _, hu, hl, fun D I M hR hM => ?_⟩
    rw [mem_append_iff, h3 D I M hR hM, h6 D I M hR hM, List.forall_mem_cons]

/-- The commands of the file. -/
theorem output_lex {K : SymInfo F} (hK : Names K) (o : Opts) {g : GenFile F} (hg : FileOK K o.evaluated g) :
    ∃ t es, output K o g = some t ∧ read t = some es ∧
      ∀ (D : Type) (I : Interp D) (M : Str F D), Reads K o.evaluated I M → Std K M →
        ((∀ e ∈ es, cmdSem I e) ↔ (∀ d ∈ g.declarations, cmdSem I (sxDecl K d)) ∧
          ∀ a ∈ g.assertions, axSem M a) := by
  obtain ⟨cs, hcs, hA⟩ := mapO_some (f := ofAx K o) (P := AxLex K o.evaluated) g.assertions
    (fun a ha => by
      obtain ⟨c, t, es, h1, h2, h3, h4⟩ := ax_lex hK (hg.ax a ha)
      exact ⟨c, h1, t, es, h2, h3, h4⟩)
  have key : ∀ (das : List (Decl F)) (i : Nat), (∀ d ∈ das, DeclOK K o.evaluated g.declarations d) →
      ∃ t es, dispFile K o.evaluated i (das.map ofDecl ++ (cs ++ [.checkSat])) = some t ∧ CmdLex t es ∧
      ∀ (D : Type) (I : Interp D) (M : Str F D), Reads K o.evaluated I M → Std K M →
        ((∀ e ∈ es, cmdSem I e) ↔ (∀ d ∈ das, cmdSem I (sxDecl K d)) ∧
          ∀ a ∈ g.assertions, axSem M a) := by
    intro das
    induction das with
    | nil =>
      intro i _
      obtain ⟨t, es, h1, h2, h3⟩ := axs_lex hA i
      refine ⟨t, es, h1, h2, fun D I M hR hM => ?_⟩
      rw [h3 D I M hR hM]
      exact ⟨fun h => And.intro (fun d hd => by simp at hd) h, fun h => h.2⟩
    | cons d das ih =>
      intro i hd
      obtain ⟨t, h1, h2⟩ := decl_lex hK (hd d (by simp))
      obtain ⟨t', es', h4, h5, h6⟩ := ih (if (ofDecl d).isAnyAssert then i + 1 else i)
        (fun x hx => hd x (by simp [hx]))
      obtain ⟨u, hu, hl⟩ := file_step h1 h2 h4 h5
      refine ⟨u, _, hu, hl, fun D I M hR hM => ?_⟩
      rw [mem_append_iff, h6 D I M hR hM, List.forall_mem_singleton, ← and_assoc,
        List.forall_mem_cons (p := fun d => cmdSem I (sxDecl K d))]
  obtain ⟨t, es, h1, h2, h3⟩ := key g.declarations 1 hg.decl
  refine ⟨t, es, ?_, h2.read, h3⟩
  simp only [output, ofFile, hcs, Option.map_some, Option.bind_some, List.append_assoc, h1]

/-- C14. The text printed for a problem reads back as a list of commands; over every domain, some
interpretation of the names satisfies the commands iff some structure models the problem, whatever the
options. -/
theorem C14_sat_iff_model {K : SymInfo F} (hK : Names K) (o : Opts) {g : GenFile F}
    (hg : FileOK K o.evaluated g) :
    ∃ t es, output K o g = some t ∧ read t = some es ∧
      ∀ D : Type, (∃ I : Interp D, ∀ e ∈ es, cmdSem I e) ↔ ∃ M : Str F D, Models K o.evaluated M g := by
  obtain ⟨t, es, ht, hr, hs⟩ := output_lex hK o hg
  refine ⟨t, es, ht, hr, fun D => ⟨?_, ?_⟩⟩
  · rintro ⟨I, hI⟩
    have hR := strOf_reads K o.evaluated I
    obtain ⟨hd, ha⟩ := (hs D I _ hR (strOf_std K o.evaluated I)).1 hI
    refine ⟨strOf K o.evaluated I, strOf_std K _ I, strOf_noop K _ I, fun d hdm => ?_, ha⟩
    have hok := hg.decl d hdm
    by_cases hfree : ∃ f, d = .free f ∧ o.evaluated = true ∧ K.kind f = .evaluate
    · obtain ⟨f, rfl, hev, hf⟩ := hfree
      obtain ⟨_, _, _, h⟩ := hok
      obtain ⟨a, b, ha, hb, hal⟩ := h hev hf
      intro ss s hss hs' as has
      rw [ha] at hss; cases hss
      rw [hb] at hs'; cases hs'
      match as, has with
      | [d], hd1 =>
        rw [strOf_noop K o.evaluated I hev f hf]
        have hd1 : (strOf K o.evaluated I).dom a d := by simpa [Typed] using hd1
        rcases hal with hal | hal
        · have := (decl_sem hK (hg.decl _ hal) hR (fun f hf => by cases hf)).1 (hd _ hal)
          exact (this d).2 hd1
        · have := (decl_sem hK (hg.decl _ hal) hR (fun f hf => by cases hf)).1 (hd _ hal)
          exact (this d).1 hd1
    · refine (decl_sem hK hok hR (fun f hf => ?_)).1 (hd d hdm)
      subst hf
      funext as
      obtain ⟨hfn, _⟩ := hok
      cases hk : K.kind f with
      | fn => exact hR.fn f (.inl hk) as
      | vampSub => exact hR.fn f (.inr hk) as
      | evaluate =>
        refine hR.evalFn ?_ f hk as
        cases he : o.evaluated with
        | false => rfl
        | true => exact absurd ⟨f, rfl, he, hk⟩ hfree
      | _ => rw [hk] at hfn; exact absurd hfn (by decide)
  · rintro ⟨M, hM⟩
    have hR := interpOf_reads hK hM.noop
    refine ⟨interpOf K M, (hs D _ M hR hM.std).2 ⟨fun d hd => ?_, hM.ax⟩⟩
    have hok := hg.decl d hd
    refine (decl_sem hK hok hR (fun f hf => ?_)).2 (hM.decl d hd)
    subst hf
    funext as
    exact interpOf_fn hK M hok.1 as

/-- Closed formulas have one value. -/
theorem FmOK.closed {K : SymInfo F} (hK : Names K) {ev : Bool} {f : Fm F} (h : FmOK K ev [] f)
    {M : Str F D} (hM : Std K M) (hn : Noop K ev M) (ρ ρ' : Valn D) : f.eval M ρ = f.eval M ρ' := by
  obtain ⟨g, _, hok, _, he⟩ := ofFm_ok h
  have hR := interpOf_reads hK hn
  rw [← he D M hM, ← he D M hM, ← sem_sx hK hR hok (rel_nil K ρ), ← sem_sx hK hR hok (rel_nil K ρ')]

/-- C14. The emitted text is unsatisfiable iff the declarations and the other assertions entail the
query, for every option setting and both realms. -/
theorem C14_unsat_iff_entailed {K : SymInfo F} (hK : Names K) (o : Opts) {ds : List (Decl F)}
    {as bs : List (Ax F)} {f : Fm F} (hg : FileOK K o.evaluated ⟨as ++ .query f :: bs, ds⟩) :
    ∃ t es, output K o ⟨as ++ .query f :: bs, ds⟩ = some t ∧ read t = some es ∧
      ((∀ (D : Type) (I : Interp D), ¬ ∀ e ∈ es, cmdSem I e) ↔
        ∀ (D : Type) (M : Str F D), Models K o.evaluated M ⟨as ++ bs, ds⟩ → ∀ ρ, Fm.holds M ρ f) := by
  obtain ⟨t, es, ht, hr, hs⟩ := C14_sat_iff_model hK o hg
  refine ⟨t, es, ht, hr, ?_⟩
  have hf : FmOK K o.evaluated [] f := hg.ax (.query f) (by simp)
  constructor
  · intro h D M hM ρ
    by_contra hn
    have hmod : Models K o.evaluated M ⟨as ++ .query f :: bs, ds⟩ := by
      refine ⟨hM.std, hM.noop, hM.decl, fun a ha => ?_⟩
      simp only [List.mem_append, List.mem_cons] at ha
      rcases ha with ha | rfl | ha
      · exact hM.ax a (by simp [ha])
      · intro ρ'
        rw [Fm.holds, hf.closed hK hM.std hM.noop ρ' ρ]; exact hn
      · exact hM.ax a (by simp [ha])
    obtain ⟨I, hI⟩ := (hs D).2 ⟨M, hmod⟩
    exact h D I hI
  · intro h D I hI
    obtain ⟨M, hM⟩ := (hs D).1 ⟨I, hI⟩
    have hmod : Models K o.evaluated M ⟨as ++ bs, ds⟩ := by
      refine ⟨hM.std, hM.noop, hM.decl, fun a ha => hM.ax a ?_⟩
      simp only [List.mem_append, List.mem_cons] at ha ⊢
      rcases ha with ha | ha
      · exact .inl ha
      · exact .inr (.inr ha)
    exact hM.ax (.query f) (by simp) (fun _ => M.ofProp True) (h D M hmod _)

namespace Demo

/-- A problem with every sort of declaration and assertion. -/
def file : GenFile Sy where
  declarations := [.sort .message, .alias .message .bitstring,
    .datatypes [(.message, [(.c, []), (.pair, [.fst, .snd])])], .free .p, .free .ev, .subterm .sub [.pair]]
  assertions := [.comment "axioms".toList, .base allP, .theory (.app .imp [allP, q]),
    .ground .message (.app .sub [.app .c [], .app .c []]),
    .rewrite .bool [x, y] (.app .ev [.app .fst [.app .pair [.var x, .var y]]]) (.app .ev [.var x])]
    ++ .query q :: []

theorem ok (ev : Bool) : FileOK K ev file where
  ax a ha := by
    simp only [file, List.cons_append, List.nil_append, List.mem_cons, List.not_mem_nil, or_false] at ha
    rcases ha with rfl | rfl | rfl | rfl | rfl | rfl <;>
      simp [AxOK, FmOK, FmOKs, allP, q, x, y, arityOK, K, rwOK]
  decl d hd := by
    simp only [file, List.mem_cons, List.not_mem_nil, or_false] at hd
    rcases hd with rfl | rfl | rfl | rfl | rfl | rfl
    · trivial
    · trivial
    · intro p hp c hc
      simp only [List.mem_cons, List.not_mem_nil, or_false] at hp
      subst hp
      simp only [List.mem_cons, List.not_mem_nil, or_false] at hc
      rcases hc with rfl | rfl <;> exact ⟨rfl, rfl, ⟨_, rfl, rfl⟩, by decide⟩
    · exact ⟨rfl, ⟨_, rfl⟩, ⟨_, rfl⟩, fun _ h => by simp [K] at h⟩
    · exact ⟨rfl, ⟨_, rfl⟩, ⟨_, rfl⟩, fun _ _ => ⟨_, _, rfl, rfl, by simp [file]⟩⟩
    · exact ⟨.inr rfl, by simp [K]⟩

set_option maxRecDepth 20000 in
/-- The text for `q` alone, as the SMT-LIB output and as the Vampire output. -/
example : output K ⟨false, false, false, false, false⟩ ⟨[.base allP, .query q], [.sort .message, .free .p]⟩ =
    some "(declare-sort Message 0)\n\n(declare-fun p$ (Message ) Bool)\n\n; 1\n(assert (forall ((MX0 Message) ) (p$ MX0 )))\n\n; 2\n(assert (not (p$ (t$ c$  c$  ) )))\n\n(check-sat)\n\n".toList := by
  decide
set_option maxRecDepth 20000 in
example : output K (Opts.vampire ⟨false, false, false, false, false⟩) ⟨[.theory allP, .query q], []⟩ =
    some "; 1\n(assert-theory (forall ((MX0 Message) ) (p$ MX0 )))\n\n; 2\n(assert-not (p$ (t$ c$  c$  ) ))\n\n(check-sat)\n\n".toList := by
  decide

/-- The hypotheses of `C14_unsat_iff_entailed` are met, in both realms and for all options, and here
the query is entailed. -/
example (o : Opts) : ∃ t es, output K o file = some t ∧ read t = some es ∧
    ∀ (D : Type) (I : Interp D), ¬ ∀ e ∈ es, cmdSem I e := by
  obtain ⟨t, es, ht, hr, h⟩ := C14_unsat_iff_entailed names o
    (ds := file.declarations) (f := q) (bs := []) (as := [.comment "axioms".toList, .base allP, .theory (.app .imp [allP, q]),
    .ground .message (.app .sub [.app .c [], .app .c []]),
    .rewrite .bool [x, y] (.app .ev [.app .fst [.app .pair [.var x, .var y]]]) (.app .ev [.var x])])
    (ok o.evaluated)
  refine ⟨t, es, ht, hr, h.2 fun D M hM ρ => ?_⟩
  have h1 : axSem M (.base allP) := hM.ax _ (by simp)
  have h2 : axSem M (.theory (.app .imp [allP, q])) := hM.ax _ (by simp)
  have h1 := h1 ρ
  have h2 := h2 ρ
  simp only [Fm.holds, Fm.eval, Fm.evals, hM.std.imp .imp rfl, M.truth_ofProp] at h2
  exact h2 h1

/-- A query that is not entailed: the text is satisfiable. -/
example (o : Opts) : ∃ t es, output K o ⟨[.query q], []⟩ = some t ∧ read t = some es ∧
    ∃ (D : Type) (I : Interp D), ∀ e ∈ es, cmdSem I e := by
  have hok : FileOK K o.evaluated ⟨[.query q], []⟩ := by
    refine ⟨?_, by simp⟩
    simp [AxOK, FmOK, FmOKs, q, arityOK, K]
  obtain ⟨t, es, ht, hr, h⟩ := C14_sat_iff_model names o hok
  let I : Interp Prop := ⟨fun _ _ => False, fun _ _ => True, id, id, fun _ => Iff.rfl⟩
  refine ⟨t, es, ht, hr, Prop, (h Prop).2 ⟨strOf K o.evaluated I, strOf_std _ _ _, strOf_noop _ _ _, by simp, ?_⟩⟩
  simp [axSem, Fm.holds, Fm.eval, Fm.evals, q, strOf, K, I]

/-! A constant with the name of a variable is captured by a quantifier. -/

/-- As `K`, the constant being called `MX0`. -/
def Kc : SymInfo Sy := { K with name := fun f => if f = .c then "MX0".toList else K.name f }
/-- `∀ x, x = c`. -/
def allEq : Fm Sy := .quant .all [x] (.app .eq [.var x, .app .c []])

end Demo

/-- C14: the condition that no constant is named like a variable is needed. With a constant `MX0`, the
query `∀ x, x = MX0` is well formed, is not entailed by anything, and its text is unsatisfiable. -/
theorem C14_capture : ∃ (t : Txt) (es : List SExp), FileOK Demo.Kc false ⟨[.query Demo.allEq], []⟩ ∧
    output Demo.Kc ⟨false, false, false, false, false⟩ ⟨[.query Demo.allEq], []⟩ = some t ∧
    read t = some es ∧ (∀ (D : Type) (I : Interp D), ¬ ∀ e ∈ es, cmdSem I e) ∧
    ∃ (D : Type) (M : Str Demo.Sy D), Models Demo.Kc false M ⟨[], []⟩ ∧ ∃ ρ, ¬ Fm.holds M ρ Demo.allEq := by
  refine ⟨"; 1\n(assert (not (forall ((MX0 Message) ) (= MX0 MX0  ))))\n\n(check-sat)\n\n".toList,
    [.list [.atom "assert".toList, .list [.atom "not".toList, .list [.atom "forall".toList,
      .list [.list [.atom "MX0".toList, .atom "Message".toList]],
      .list [.atom "=".toList, .atom "MX0".toList, .atom "MX0".toList]]]],
     .list [.atom "check-sat".toList]], ?_, by decide +kernel, read_of_lex (by decide +kernel), ?_, ?_⟩
  · refine ⟨?_, by simp⟩
    simp [AxOK, FmOK, FmOKs, Demo.allEq, Demo.x, arityOK, Demo.Kc, Demo.K]
  · intro D I h
    have h1 := h _ (List.mem_cons_self ..)
    have hnot : "not".toList ∉ ["forall".toList, "exists".toList, "and".toList, "or".toList, "=".toList,
      "distinct".toList] := by decide
    simp [cmdSem, sem, sems, appS, I.truth_ofProp, quantS, binder, chainEq] at h1
  · let I : Interp Bool := ⟨fun _ _ => true, fun _ _ => True, fun b => b = true, fun p => decide p,
      fun _ => by simp⟩
    refine ⟨Bool, strOf Demo.Kc false I, ⟨strOf_std _ _ _, strOf_noop _ _ _, by simp, by simp⟩, fun _ => true, ?_⟩
    simp [Fm.holds, Fm.eval, Fm.evals, Demo.allEq, strOf, Demo.Kc, Demo.K, I, quantVal, Demo.x, Valn.set]

/-- SPECIFICATION: commands of the SMT-LIB standard. -/
def Smt.standard : Smt F → Bool
  | .assert _ | .declFun _ | .declSort _ | .declAlias .. | .declData .. | .comment _ | .checkSat => true
  | .assertTh _ | .assertGround .. | .assertNot _ | .declSub .. | .declRw .. => false

theorem mapO_mem {α β : Type} {f : α → Option β} : ∀ {l : List α} {bs : List β}, mapO f l = some bs →
    ∀ b ∈ bs, ∃ a ∈ l, f a = some b
  | [], bs, h => by simp [mapO] at h; subst h; simp
  | a :: l, bs, h => by
    simp only [mapO, Option.bind_eq_some_iff, Option.map_eq_some_iff] at h
    obtain ⟨x, hx, xs, hxs, rfl⟩ := h
    intro b hb
    rcases List.mem_cons.1 hb with rfl | hb
    · exact ⟨a, by simp, hx⟩
    · obtain ⟨a', ha, he⟩ := mapO_mem hxs b hb
      exact ⟨a', by simp [ha], he⟩

theorem mapO_mem' {α β : Type} {f : α → Option β} : ∀ {l : List α} {bs : List β}, mapO f l = some bs →
    ∀ a ∈ l, ∃ b ∈ bs, f a = some b
  | [], bs, h => by simp
  | a :: l, bs, h => by
    simp only [mapO, Option.bind_eq_some_iff, Option.map_eq_some_iff] at h
    obtain ⟨x, hx, xs, hxs, rfl⟩ := h
    intro b hb
    rcases List.mem_cons.1 hb with rfl | hb
    · exact ⟨x, by simp, hx⟩
    · obtain ⟨a', ha, he⟩ := mapO_mem' hxs b hb
      exact ⟨a', by simp [ha], he⟩

/-- C14: the file given to z3 contains only standard commands iff no Vampire subterm relation is
declared and rewrite rules are absent or turned into assertions. -/
theorem C14_z3_standard {K : SymInfo F} (o : Opts) {g : GenFile F} {cs : List (Smt F)}
    (h : ofFile K o.z3 g = some cs) :
    (∀ c ∈ cs, c.standard) ↔ (∀ f gs, .subterm f gs ∉ g.declarations) ∧
      (o.noRewrite = true ∨ ∀ k vs l r, .rewrite k vs l r ∉ g.assertions) := by
  simp only [ofFile, Option.map_eq_some_iff] at h
  obtain ⟨as, has, rfl⟩ := h
  constructor
  · intro hs
    refine ⟨fun f gs hm => ?_, ?_⟩
    · have := hs (.declSub f gs) (by
        simp only [List.mem_append, List.mem_map]
        exact .inl (.inl ⟨_, hm, rfl⟩))
      simp [Smt.standard] at this
    · cases hr : o.noRewrite with
      | true => exact .inl rfl
      | false =>
        right
        intro k vs l r hm
        obtain ⟨c, hc, he⟩ := mapO_mem' has _ hm
        have hst := hs c (by simp [hc])
        simp only [ofAx, Option.bind_eq_some_iff, Option.map_eq_some_iff, Opts.z3, hr, if_false,
          Bool.false_eq_true] at he
        obtain ⟨_, _, _, _, rfl⟩ := he
        simp [Smt.standard] at hst
  · rintro ⟨h1, h2⟩ c hc
    simp only [List.mem_append, List.mem_map, List.mem_singleton] at hc
    rcases hc with (⟨d, hd, rfl⟩ | hc) | rfl
    · cases d <;> first | rfl | exact absurd hd (h1 _ _)
    · obtain ⟨a, ha, he⟩ := mapO_mem has c hc
      cases a with
      | rewrite k vs l r =>
        simp only [ofAx, Option.bind_eq_some_iff, Option.map_eq_some_iff, Opts.z3] at he
        obtain ⟨_, _, _, _, rfl⟩ := he
        rcases h2 with h2 | h2
        · simp [h2, Smt.standard]
        · exact absurd ha (h2 _ _ _ _)
      | comment s => simp only [ofAx, Option.some.injEq] at he; subst he; rfl
      | _ =>
        simp only [ofAx, Option.map_eq_some_iff, Opts.z3, if_false, Bool.false_eq_true] at he
        obtain ⟨_, _, rfl⟩ := he
        rfl
    · rfl

/-- Both sides occur: the demo problem has rewrite rules and a subterm relation. -/
example : ¬ ((∀ f gs, .subterm f gs ∉ Demo.file.declarations) ∧
    (false = true ∨ ∀ k vs l r, .rewrite k vs l r ∉ Demo.file.assertions)) :=
  fun h => h.1 .sub [.pair] (by simp [Demo.file])
example : ∃ cs, ofFile Demo.K (Opts.z3 ⟨true, true, true, true, false⟩)
    ⟨Demo.file.assertions, [.free .p]⟩ = some cs ∧ ∀ c ∈ cs, c.standard := ⟨_, rfl, by decide⟩


end SmtM
end CV
