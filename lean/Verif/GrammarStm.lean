import Verif.GrammarTerms
/-
Statements and files are read as they are written: the grammar and the conversion of Grammar.lean against the specification of
GrammarSpec.lean.
-/
set_option linter.unusedSimpArgs false
set_option linter.unusedVariables false
set_option linter.unusedSectionVars false
namespace CV
namespace Txt2
open Prs (Out)

section
variable {U : Char → Bool} {dbg : Bool}

/-! ### What follows a statement -/

/-- The text `w ++ r` may follow a statement. -/
structure Foll (U : Char → Bool) (e : End) (w r : Tx) : Prop where
  blank : Blank w
  solid : Solid r
  next : r = [] ∨ hd r = ';' ∨ letter U (hd r) = true
  name : e = .name → idc U (hd (w ++ r)) = false ∧ hd (w ++ r) ≠ '!'
  semi : e = .semi → idc U (hd (w ++ r)) = false ∧ letter U (hd r) = false

theorem Foll.hd {e : End} {w r : Tx} (f : Foll U e w r) {c : Char} (h1 : letter U c = false) (h2 : c ≠ ';') (h3 : c ≠ '.') :
    hd r ≠ c := by
  rintro rfl
  rcases f.next with rfl | h | h
  · exact h3 rfl
  · exact h2 h
  · rw [h] at h1; cases h1

/-- What may follow the last part of a statement that can have options. -/
def FolT (U : Char → Bool) (al : Bool) (e : End) (w r : Tx) : Prop :=
  Foll U e w r ∨ (al = true ∧ Blank w ∧ ∃ x, r = '[' :: x)

theorem FolT.fol {o : Bool} {w r : Tx} (h : FolT U (!o) (.of o) w r) : Fol U o w r := by
  rcases h with h | ⟨ho, hw, x, rfl⟩
  · refine ⟨h.blank, h.solid, fun ho => ⟨h.hd rfl (by decide) (by decide), h.hd rfl (by decide) (by decide),
      h.hd rfl (by decide) (by decide)⟩, fun ho => ?_⟩
    subst ho
    exact h.name rfl
  · cases o with
    | false => exact Fol.closed hw (solid_cons rfl (by decide) (by decide) (by decide))
    | true => cases ho

theorem FolT.idc {al : Bool} {w r : Tx} (h : FolT U al .name w r) : Txt2.idc U (Txt2.hd (w ++ r)) = false := by
  rcases h with h | ⟨ho, hw, x, rfl⟩
  · exact (h.name rfl).1
  · exact hd_sym rfl hw

theorem FolT.blank {al : Bool} {e : End} {w r : Tx} (h : FolT U al e w r) : Blank w ∧ Solid r := by
  rcases h with h | ⟨ho, hw, x, rfl⟩
  · exact ⟨h.blank, h.solid⟩
  · exact ⟨hw, solid_cons rfl (by decide) (by decide) (by decide)⟩

/-! ### Options -/

theorem ids_star {k : Rule}
    {P : Pair → String → Prop} (hok : ∀ {x rest : Tx}, IdTx U x → idc U (hd rest) = false →
      ∃ p, Ok (gram U) (.call k) (x ++ rest) [p] rest ∧ P p (String.ofList x))
    (hno : ∀ {t : Tx}, letter U (hd t) = false → No (gram U) (.call k) t) {l : List String} {s : Tx} (I : WIds U l s) (rest : Tx) :
    Solid (s ++ ']' :: rest) ∧ (∀ w, Blank w → ∃ ps v, Blank v ∧ List.Forall₂ P ps l ∧
      Ok (gram U) (.star (.seq skipG (.call k))) (w ++ (s ++ ']' :: rest)) ps (v ++ ']' :: rest)) ∧
    ∃ ps v, Blank v ∧ List.Forall₂ P ps l ∧ Ok (gram U) (many (.call k)) (s ++ ']' :: rest) ps (v ++ ']' :: rest) := by
  have hcl : Solid (']' :: rest) := solid_cons rfl (by decide) (by decide) (by decide)
  have hend : ∀ w, Blank w → ∃ ps v, Blank v ∧ List.Forall₂ P ps [] ∧
      Ok (gram U) (.star (.seq skipG (.call k))) (w ++ (']' :: rest)) ps (v ++ ']' :: rest) := fun w hw =>
    ⟨[], w, hw, .nil, ok_star0 (no_seq2 (skip_ok hw hcl) (hno rfl))⟩
  induction I with
  | nil => exact ⟨hcl, hend, [], [], .nil, .nil, ok_opt0 (no_seq1 (hno rfl))⟩
  | one x w hx hw =>
    have hs : Solid (x.toList ++ (w ++ ']' :: rest)) := solid_id hx
    obtain ⟨p, h1, h2⟩ := hok (rest := w ++ ']' :: rest) hx (hd_sym rfl hw)
    rw [String.ofList_toList] at h2
    obtain ⟨ps, v, hv, h3, h4⟩ := hend w hw
    rw [List.append_assoc]
    exact ⟨hs, fun w' hw' => ⟨p :: ps, v, hv, .cons h2 h3, ok_star1 (ok_seq (p := []) (skip_ok hw' hs) h1) h4⟩,
      p :: ps, v, hv, .cons h2 h3, ok_opt1 (ok_seq h1 h4)⟩
  | cons x y l w s hx hw hn _ ih =>
    have hs : Solid (x.toList ++ (w ++ (s ++ ']' :: rest))) := solid_id hx
    obtain ⟨p, h1, h2⟩ := hok (rest := w ++ (s ++ ']' :: rest)) hx (blank_hd hw hn).1
    rw [String.ofList_toList] at h2
    obtain ⟨_, ih, _⟩ := ih
    obtain ⟨ps, v, hv, h3, h4⟩ := ih w hw
    simp only [List.append_assoc]
    exact ⟨hs, fun w' hw' => ⟨p :: ps, v, hv, .cons h2 h3, ok_star1 (ok_seq (p := []) (skip_ok hw' hs) h1) h4⟩,
      p :: ps, v, hv, .cons h2 h3, ok_opt1 (ok_seq h1 h4)⟩

theorem options_ok {l : List String} {w s : Tx} (hw : Blank w) (I : WIds U l s) (rest : Tx) : ∃ x ps,
    Ok (gram U) (.call .options) ('[' :: (w ++ (s ++ ']' :: rest))) [.node .options x ps] rest ∧
      cOptions dbg (.node .options x ps) = .ok l := by
  obtain ⟨hs, -, ps, v, hv, hp, h⟩ := ids_star (k := .ident) (P := fun p x => cIdent dbg p = .ok x)
    (fun hx hr => ⟨_, ident_ok hx hr, by simp [cIdent, chk, Pair.rule, Pair.text]⟩) no_ident I rest
  have h1 := ok_call' (r := .options) (ok_lit_then (k := c!"[") hw hs (ok_then h hv
    (solid_cons rfl (by decide) (by decide) (by decide)) (ok_lit (s := c!"]") (t := rest))))
  refine ⟨_, ps, by simpa using h1, ?_⟩
  simp [cOptions, chk, Pair.rule, Pair.kids, cAll_ok hp]

theorem no_options {t : Tx} (h : hd t ≠ '[') : No (gram U) (.call .options) t := no_call (no_then1 (no_lit_hd h))

/-- The last part of a statement, then the options. -/
theorem tail_gen {a : G} {t : Tx} {P : List Pair → Prop} {al : Bool} {e e' : End} {l : List String} {s w r : Tx}
    (ht : WTail U al e l s e') (hf : Foll U e' w r)
    (ha : ∀ w' r', FolT U al e w' r' → ∃ p v, Blank v ∧ Ok (gram U) a (t ++ (w' ++ r')) p (v ++ r') ∧ P p) :
    ∃ p q v, Blank v ∧ P p ∧ Ok (gram U) (a ~~ .opt (.call .options)) (t ++ (s ++ (w ++ r))) (p ++ q) (v ++ r) ∧
      ((q = [] ∧ l = []) ∨ ∃ x ps, q = [.node .options x ps] ∧ cOptions dbg (.node .options x ps) = .ok l) := by
  cases ht with
  | none =>
    obtain ⟨p, v, hv, h, hp⟩ := ha w r (.inl hf)
    exact ⟨p, [], [], .nil, hp, ok_then h hv hf.solid (ok_opt0 (no_options (hf.hd rfl (by decide) (by decide)))), .inl ⟨rfl, rfl⟩⟩
  | some l w₁ w₂ s hal hw₁ hw₂ I =>
    obtain ⟨x, ps, h1, h2⟩ := options_ok (dbg := dbg) hw₂ I (w ++ r)
    obtain ⟨p, v, hv, h, hp⟩ := ha w₁ _ (.inr ⟨hal, hw₁, w₂ ++ (s ++ ']' :: (w ++ r)), rfl⟩)
    refine ⟨p, _, w, hf.blank, hp, ?_, .inr ⟨x, ps, rfl, h2⟩⟩
    have := ok_then h hv (solid_cons rfl (by decide) (by decide) (by decide)) (ok_opt1 h1)
    simpa using this

theorem tail_then {a : G} {t : Tx} {P : List Pair → Prop} {al : Bool} {e e' : End} {l : List String} {s w r : Tx}
    (ht : WTail U al e l s e') (hf : Foll U e' w r)
    (ha : ∀ w' r', FolT U al e w' r' → ∃ p v, Blank v ∧ Ok (gram U) a (t ++ (w' ++ r')) p (v ++ r') ∧ P p) :
    ∃ p q v, Blank v ∧ P p ∧ cOpts dbg q = .ok l ∧
      Ok (gram U) (a ~~ .opt (.call .options)) (t ++ (s ++ (w ++ r))) (p ++ q) (v ++ r) := by
  obtain ⟨p, q, v, hv, hp, h, hq⟩ := tail_gen (dbg := dbg) ht hf ha
  refine ⟨p, q, v, hv, hp, ?_, h⟩
  rcases hq with ⟨rfl, rfl⟩ | ⟨x, ps, rfl, hc⟩
  · rfl
  · simpa [cOpts] using hc

/-! ### Statements -/

/-- The statement written as `s` is read when something allowed follows. -/
def RdStm (U : Char → Bool) (dbg : Bool) (e : End) (a : Stm) (s : Tx) : Prop := ∀ w r, Foll U e w r →
  ∃ x k v, Blank v ∧ Ok (gram U) (.call .content) (s ++ (w ++ r)) [.node .content x [k]] (v ++ r) ∧
    cStm dbg (.node .content x [k]) = .ok a

theorem call_rule {k : Rule} {t t' : Tx} {p : Pair} (h : Ok (gram U) (.call k) t [p] t') : p.rule = k := by
  obtain ⟨n, h⟩ := h
  cases n with
  | zero => simp [run] at h
  | succ n =>
    rw [run] at h
    split at h
    · cases h
    · cases h
    · simp only [Option.some.injEq, Prod.mk.injEq, List.cons.injEq] at h
      rw [← h.1.1]
      rfl

theorem rs_type {e : End} {n : String} {l : List String} {w tl : Tx} (hn : IdTx U n.toList) (hw : Blank w)
    (ht : WTail U true .name l tl e) : RdStm U dbg e (.type n l) (c!"type" ++ (w ++ (n.toList ++ tl))) := by
  intro w' r f
  obtain ⟨p, q, v, hv, hp, hq, h⟩ := tail_then (dbg := dbg) (a := .call .type_name) (t := n.toList)
    (P := fun p => p = [.node .type_name n.toList [.node .ident n.toList []]]) ht f
    (fun w' r' f' => ⟨_, w', f'.blank.1, name_ok rfl hn f'.idc, rfl⟩)
  subst hp
  have h1 := ok_call' (r := .content) (ok_alt1 (ok_call' (r := .declaration) (ok_alt1 (ok_call' (r := .declare_type)
    (ok_lit_then (k := c!"type") hw (solid_id hn) h)))))
  refine ⟨_, _, v, hv, by simpa using h1, ?_⟩
  simp [cStm, cInside, chk, Pair.rule, Pair.kids, cDeclaration, cType, cName_ok, hq, Out.bind]

/-! ### Declarations of functions and cells -/

theorem elem_sort : Elem (gram U) (.call .type_name) ')' (fun (x : String) t => IdTx U t ∧ t = x.toList)
    (fun p b => cName dbg .type_name p = .ok b) := by
  refine ⟨fun a t s h => solid_id h.1, fun a t w s c h hw hc => ?_, fun s => no_name rfl rfl⟩
  obtain ⟨h, rfl⟩ := h
  exact ⟨_, w, hw, name_ok rfl h (by rcases hc with rfl | rfl <;> exact hd_sym rfl hw), by simp [cName_ok]⟩

theorem fargs_then {a B : G} {t w₁ b w₂ t' t'' : Tx} {p q : List Pair} {l : List String} (hw₁ : Blank w₁) (hb : WSorts U l b)
    (hw₂ : Blank w₂) (h : Ok (gram U) a t p (w₁ ++ (b ++ (w₂ ++ t')))) (hs : Solid t') (hn : hd t' ≠ '(')
    (h' : Ok (gram U) B t' q t'') :
    ∃ x, cFunArgs dbg x = .ok l ∧ Ok (gram U) (a ~~ .call .declare_function_args ~~ B) t (p ++ x :: q) t'' := by
  cases hb with
  | none =>
    refine ⟨_, ?_, ok_then (w := w₁ ++ w₂) (by simpa using h) (hw₁.append hw₂) hs
      (ok_then (w := []) (ok_call' (ok_opt0 (no_then1 (no_lit_hd hn)))) .nil hs h')⟩
    simp [cFunArgs, chk, Pair.rule, Pair.kids, cAll]
  | some l w s hw I =>
    obtain ⟨ps, h1, h2⟩ := listOf_ok (opn := c!"(") (elem_sort (U := U) (dbg := dbg))
      (solid_cons rfl (by decide) (by decide) (by decide)) (by decide) I hw (w₂ ++ t')
    refine ⟨_, ?_, ok_then (w := w₁) (by simpa using h) hw₁ (solid_open hw (items_solid (fun a t r h => solid_id h.1) I
      (solid_cons rfl (by decide) (by decide) (by decide)))) (ok_then (ok_call' (ok_opt1 h1)) hw₂ hs h')⟩
    simp [cFunArgs, chk, Pair.rule, Pair.kids, cAll_ok h2]

theorem sorts_hd {l : List String} {b w t : Tx} {c : Char} (hw : Blank w) (hb : WSorts U l b) {w₂ : Tx} (hw₂ : Blank w₂)
    (hc : idc U c = false) : idc U (hd (w ++ (b ++ (w₂ ++ c :: t)))) = false := by
  cases hb with
  | none => exact (by simpa using hd_sym (U := U) (s := t) hc (hw.append hw₂))
  | some l w' s _ _ => exact hd_sym rfl hw

theorem fun_ok {e : End} {n T : String} {a l : List String} {kw w₁ w₂ b w₃ w₄ tl : Tx} (hn : IdTx U n.toList)
    (hT : IdTx U T.toList) (hw₁ : Blank w₁) (hw₂ : Blank w₂) (hb : WSorts U a b) (hw₃ : Blank w₃) (hw₄ : Blank w₄)
    (ht : WTail U true .name l tl e) {w r : Tx} (f : Foll U e w r) : ∃ x y q v, Blank v ∧ cFunArgs dbg x = .ok a ∧
      cOpts dbg q = .ok l ∧ y = .node .type_name T.toList [.node .ident T.toList []] ∧
      Ok (gram U) (.lit kw ~~ .call .function ~~ .call .declare_function_args ~~ .lit c!":" ~~ .call .type_name
          ~~ .opt (.call .options))
        (kw ++ (w₁ ++ (n.toList ++ (w₂ ++ (b ++ (w₃ ++ (':' :: (w₄ ++ (T.toList ++ (tl ++ (w ++ r)))))))))))
        (.node .function n.toList [.node .ident n.toList []] :: x :: y :: q) (v ++ r) := by
  obtain ⟨p, q, v, hv, hp, hq, h⟩ := tail_then (dbg := dbg) (a := .call .type_name) (t := T.toList)
    (P := fun p => p = [.node .type_name T.toList [.node .ident T.toList []]]) ht f
    (fun w' r' f' => ⟨_, w', f'.blank.1, name_ok rfl hT f'.idc, rfl⟩)
  subst hp
  have h1 := ok_lit_then (gr := gram U) (k := c!":") hw₄ (solid_id hT) h
  obtain ⟨x, hx, h2⟩ := fargs_then (dbg := dbg) hw₂ hb hw₃ (name_ok (k := .function) rfl hn (sorts_hd hw₂ hb hw₃ rfl))
    (solid_cons rfl (by decide) (by decide) (by decide)) (by simp [hd]) h1
  exact ⟨x, _, q, v, hv, hx, hq, rfl, ok_lit_then hw₁ (solid_id hn) h2⟩

theorem rs_func {e : End} {n T : String} {a l : List String} {w₁ w₂ b w₃ w₄ tl : Tx} (hn : IdTx U n.toList)
    (hT : IdTx U T.toList) (hw₁ : Blank w₁) (hw₂ : Blank w₂) (hb : WSorts U a b) (hw₃ : Blank w₃) (hw₄ : Blank w₄)
    (ht : WTail U true .name l tl e) : RdStm U dbg e (.func n a T l)
      (c!"fun" ++ (w₁ ++ (n.toList ++ (w₂ ++ (b ++ (w₃ ++ (':' :: (w₄ ++ (T.toList ++ tl))))))))) := by
  intro w r f
  obtain ⟨x, y, q, v, hv, hx, hq, rfl, h⟩ := fun_ok (dbg := dbg) (kw := c!"fun") hn hT hw₁ hw₂ hb hw₃ hw₄ ht f
  have h1 := ok_call' (r := .content) (ok_alt1 (ok_call' (r := .declaration) (alt2 (no_call (no_then1 (no_lit rfl)))
    (ok_alt1 (ok_call' (r := .declare_function) h)))))
  refine ⟨_, _, v, hv, by simpa using h1, ?_⟩
  simp [cStm, cInside, chk, Pair.rule, Pair.kids, cDeclaration, cFun, cName_ok, hq, hx, Out.bind]

theorem rs_cell {e : End} {n T : String} {a l : List String} {w₁ w₂ b w₃ w₄ tl : Tx} (hn : IdTx U n.toList)
    (hT : IdTx U T.toList) (hw₁ : Blank w₁) (hw₂ : Blank w₂) (hb : WSorts U a b) (hw₃ : Blank w₃) (hw₄ : Blank w₄)
    (ht : WTail U true .name l tl e) : RdStm U dbg e (.cell n a T l)
      (c!"cell" ++ (w₁ ++ (n.toList ++ (w₂ ++ (b ++ (w₃ ++ (':' :: (w₄ ++ (T.toList ++ tl))))))))) := by
  intro w r f
  obtain ⟨x, y, q, v, hv, hx, hq, rfl, h⟩ := fun_ok (dbg := dbg) (kw := c!"cell") hn hT hw₁ hw₂ hb hw₃ hw₄ ht f
  have h1 := ok_call' (r := .content) (ok_alt1 (ok_call' (r := .declaration) (alt2 (no_call (no_then1 (no_lit rfl)))
    (alt2 (no_call (no_then1 (no_lit rfl))) (ok_call' (r := .declare_cell) h)))))
  refine ⟨_, _, v, hv, by simpa using h1, ?_⟩
  simp [cStm, cInside, chk, Pair.rule, Pair.kids, cDeclaration, cFun, cName_ok, hq, hx, Out.bind]

/-! ### Steps -/

theorem no_declaration {t : Tx} (h1 : (c!"type").isPrefixOf t = false) (h2 : (c!"fun").isPrefixOf t = false)
    (h3 : (c!"cell").isPrefixOf t = false) : No (gram U) (.call .declaration) t :=
  no_call (alt2 (no_call (no_then1 (no_lit h1))) (alt2 (no_call (no_then1 (no_lit h2))) (no_call (no_then1 (no_lit h3)))))

theorem appl_hd {o : Bool} {a : Appl} {s : Tx} (h : WAppl U o a s) (r : Tx) : hd (s ++ r) ≠ '(' := by
  have key : ∀ {x : Tx}, VPlain U x → ∀ r, hd (x ++ r) ≠ '(' := by
    intro x h r
    rcases h with h | ⟨r', rfl, h⟩
    · obtain ⟨c, r', rfl, hc, _⟩ := h.id
      exact ne_of_letter hc rfl
    · simp [hd]
  cases h with
  | const x hx => exact key hx r
  | const0 x o c w w' hx _ _ _ => rw [List.append_assoc]; exact key hx _
  | app f o c a l w w' s hx _ _ _ _ => rw [List.append_assoc]; exact key (.inl hx) _

theorem asg_end {o o' : Bool} {c : Appl} {t : Tm} {s₁ w₁ w₂ s₂ : Tx} (h₁ : WAppl U o c s₁) (hw₁ : Blank w₁) (hw₂ : Blank w₂)
    (h₂ : WTm U o' t s₂) {w r : Tx} (f : Fol U o' w r) : ∃ x ks p v, Blank v ∧ cAppl dbg ks = .ok c ∧ cTerm dbg p = .ok t ∧
      Solid (s₁ ++ (w₁ ++ (c!"<-" ++ (w₂ ++ (s₂ ++ (w ++ r)))))) ∧
      Ok (gram U) (.call .application ~~ .lit c!"<-" ~~ .call .term) (s₁ ++ (w₁ ++ (c!"<-" ++ (w₂ ++ (s₂ ++ (w ++ r))))))
        [.node .application x ks, p] (v ++ r) := by
  have hs : Solid (c!"<-" ++ (w₂ ++ (s₂ ++ (w ++ r)))) := solid_cons rfl (by decide) (by decide) (by decide)
  obtain ⟨x, ks, v₁, hv₁, hok₁, hc₁, -⟩ := (rdA (dbg := dbg) h₁).2 w₁ (c!"<-" ++ (w₂ ++ (s₂ ++ (w ++ r))))
    (Fol.sym hw₁ hs rfl (by decide))
  obtain ⟨p, v, hv, hok, hc⟩ := (rdT (dbg := dbg) h₂).2 w r f
  exact ⟨x, ks, p, v, hv, hc₁, hc, (rdA (dbg := dbg) h₁).1 _,
    ok_then hok₁ hv₁ hs (ok_lit_then (k := c!"<-") hw₂ ((rdT (dbg := dbg) h₂).1 _) hok)⟩

theorem elem_asg : Elem (gram U) (.call .assignement) '}' (WAsg U) (fun p b => cAsg dbg p = .ok b) := by
  refine ⟨fun a t s h => ?_, fun a t w s c h hw hc => ?_, fun s => ?_⟩
  · cases h with
    | plain o o' c t s₁ w₁ w₂ s₂ h₁ _ _ _ => rw [List.append_assoc]; exact (rdA (dbg := dbg) h₁).1 _
    | vars o o' v c t w s w₀ s₁ w₁ w₂ s₂ hw I _ _ _ _ _ =>
      have := solid_open hw (items_solid (fun a t r h => solid_bnd h r) I
        (solid_cons rfl (by decide) (by decide) (by decide) : Solid (')' :: (w₀ ++ (s₁ ++ (w₁ ++ (c!"<-" ++ (w₂ ++ (s₂ ++ s)))))))))
      refine ⟨rfl, by simp [hd], by simp [hd], fun _ => ?_⟩
      have h2 := solid_open hw (items_solid (fun a t r h => solid_bnd h r) I
        (solid_cons rfl (by decide) (by decide) (by decide) : Solid (')' :: [])))
      have h3 := h2.2.2.2 rfl
      cases w with
      | cons d w => exact h3
      | nil =>
        cases I with
        | nil => simp [hd]
        | one a t w ha _ => cases ha with
          | mk x T w w' hx _ _ _ => simp only [List.append_assoc, List.nil_append, List.cons_append, List.tail_cons]; exact (solid_var hx).2.2.1
        | cons a l t w w' s ha _ _ _ => cases ha with
          | mk x T w w' hx _ _ _ => simp only [List.append_assoc, List.nil_append, List.cons_append, List.tail_cons]; exact (solid_var hx).2.2.1
  · have hf : ∀ o, Fol U o w (c :: s) := fun o => by
      rcases hc with rfl | rfl <;> exact Fol.sym hw (solid_cons rfl (by decide) (by decide) (by decide)) rfl (by decide)
    cases h with
    | plain o o' a t s₁ w₁ w₂ s₂ h₁ hw₁ hw₂ h₂ =>
      obtain ⟨x, ks, p, v, hv, c1, c2, hs, hok⟩ := asg_end (dbg := dbg) h₁ hw₁ hw₂ h₂ (hf o')
      have := ok_then (gr := gram U) (w := []) (ok_call' (r := .typed_arguments) (ok_opt0 (no_then1 (no_lit_hd
        (appl_hd h₁ (w₁ ++ (c!"<-" ++ (w₂ ++ (s₂ ++ (w ++ c :: s))))))))))
        .nil hs hok
      refine ⟨_, v, hv, by simpa using ok_call' (r := .assignement) this, ?_⟩
      simp [cAsg, chk, Pair.rule, Pair.kids, cApplication, c1, c2, cBnds, cAll, Out.bind]
    | vars o o' vs a t w' s' w₀ s₁ w₁ w₂ s₂ hw' I hw₀ h₁ hw₁ hw₂ h₂ =>
      obtain ⟨x, ks, p, v, hv, c1, c2, hs, hok⟩ := asg_end (dbg := dbg) h₁ hw₁ hw₂ h₂ (hf o')
      obtain ⟨ps, h1, h2⟩ := listOf_ok (opn := c!"(") (elem_bnd (U := U) (dbg := dbg))
        (solid_cons rfl (by decide) (by decide) (by decide)) (by decide) I hw'
        (w₀ ++ (s₁ ++ (w₁ ++ (c!"<-" ++ (w₂ ++ (s₂ ++ (w ++ c :: s)))))))
      have := ok_then (gr := gram U) (ok_call' (r := .typed_arguments) (ok_opt1 h1)) hw₀ hs hok
      refine ⟨_, v, hv, by simpa using ok_call' (r := .assignement) this, ?_⟩
      simp [cAsg, chk, Pair.rule, Pair.kids, cApplication, c1, c2, cBnds, cAll_ok h2, Out.bind]
  · refine no_call (no_then2 (w := []) (ok_call' (ok_opt0 (no_then1 (no_lit_hd (by simp [hd]))))) .nil
      (solid_cons rfl (by decide) (by decide) (by decide)) (no_then1 (no_call (no_then1 (alt2 (no_name rfl rfl)
        (no_var rfl (by simp [hd])))))))

theorem bnds_hd {l : List Bnd} {b w t : Tx} {c : Char} (hw : Blank w) (hb : WBnds U l b) {w₂ : Tx} (hw₂ : Blank w₂)
    (hc : idc U c = false) : idc U (hd (w ++ (b ++ (w₂ ++ c :: t)))) = false := by
  cases hb with
  | none => exact (by simpa using hd_sym (U := U) (s := t) hc (hw.append hw₂))
  | some l w' s _ _ => exact hd_sym rfl hw

theorem step_front {B : G} {o₁ : Bool} {n : String} {v : List Bnd} {c : Tm} {w₁ w₂ b w₃ w₄ s₁ w₅ w₆ t' t'' : Tx}
    {q : List Pair} (hn : IdTx U n.toList) (hw₁ : Blank w₁) (hw₂ : Blank w₂) (hb : WBnds U v b) (hw₃ : Blank w₃) (hw₄ : Blank w₄)
    (h₁ : WTm U o₁ c s₁) (hw₅ : Blank w₅) (hw₆ : Blank w₆) (hs : Solid t') (h : Ok (gram U) B t' q t'') :
    ∃ x p, cBnds dbg x = .ok v ∧ cTerm dbg p = .ok c ∧
      Ok (gram U) (.lit c!"step" ~~ .call .step_name ~~ .call .typed_arguments ~~ bracketed ~~ B)
        (c!"step" ++ (w₁ ++ (n.toList ++ (w₂ ++ (b ++ (w₃ ++ ('{' :: (w₄ ++ (s₁ ++ (w₅ ++ ('}' :: (w₆ ++ t'))))))))))))
        (.node .step_name n.toList [.node .ident n.toList []] :: x :: p :: q) t'' := by
  obtain ⟨p₁, c₁, ok₁⟩ := bracketed_ok (rdT (dbg := dbg) h₁) hw₄ hw₅ (w₆ ++ t')
  obtain ⟨x, hx, h2⟩ := ta_then (dbg := dbg) hw₂ hb hw₃ (name_ok (k := .step_name) rfl hn (bnds_hd hw₂ hb hw₃ rfl))
    (solid_brace _) (fun _ => by simp [hd]) (ok_then ok₁ hw₆ hs h)
  exact ⟨x, p₁, hx, c₁, ok_lit_then hw₁ (solid_id hn) h2⟩

theorem rs_step0 {o₁ o₂ : Bool} {n : String} {v : List Bnd} {c m : Tm} {w₁ w₂ b w₃ w₄ s₁ w₅ w₆ w₇ s₂ w₈ : Tx}
    (hn : IdTx U n.toList) (hw₁ : Blank w₁) (hw₂ : Blank w₂) (hb : WBnds U v b) (hw₃ : Blank w₃) (hw₄ : Blank w₄)
    (h₁ : WTm U o₁ c s₁) (hw₅ : Blank w₅) (hw₆ : Blank w₆) (hw₇ : Blank w₇) (h₂ : WTm U o₂ m s₂) (hw₈ : Blank w₈) :
    RdStm U dbg .closed (.step n v c m none [])
        (c!"step" ++ (w₁ ++ (n.toList ++ (w₂ ++ (b ++ (w₃ ++ ('{' :: (w₄ ++ (s₁ ++ (w₅ ++ ('}' :: (w₆ ++ ('{' :: (w₇ ++
          (s₂ ++ (w₈ ++ ['}'])))))))))))))))) := by
  intro w r f
  obtain ⟨p₂, c₂, ok₂⟩ := bracketed_ok (rdT (dbg := dbg) h₂) hw₇ hw₈ (w ++ r)
  have e := ok_then ok₂ f.blank f.solid (ok_then (a := .opt (.call .assignements)) (b := .opt (.call .options)) (w := [])
    (ok_opt0 (no_call (no_then1 (no_lit_hd (f.hd rfl (by decide) (by decide)))))) .nil f.solid
    (ok_opt0 (no_options (f.hd rfl (by decide) (by decide)))))
  obtain ⟨x, p₁, hx, c₁, h⟩ := step_front (dbg := dbg) hn hw₁ hw₂ hb hw₃ hw₄ h₁ hw₅ hw₆ (solid_brace _) e
  have h1 := ok_call' (r := .content) (alt2 (no_declaration rfl rfl rfl) (ok_alt1 (ok_call' (r := .step) h)))
  refine ⟨_, _, [], .nil, by simpa using h1, ?_⟩
  simp [cStm, cInside, chk, Pair.rule, Pair.kids, cStep, cName_ok, hx, c₁, c₂, cStepEnd, Out.bind]

theorem rs_step {e : End} {o₁ o₂ : Bool} {n : String} {v : List Bnd} {c m : Tm} {as : List Asg} {l : List String}
    {w₁ w₂ b w₃ w₄ s₁ w₅ w₆ w₇ s₂ w₈ w₉ w₁₀ s₃ tl : Tx}
    (hn : IdTx U n.toList) (hw₁ : Blank w₁) (hw₂ : Blank w₂) (hb : WBnds U v b) (hw₃ : Blank w₃) (hw₄ : Blank w₄)
    (h₁ : WTm U o₁ c s₁) (hw₅ : Blank w₅) (hw₆ : Blank w₆) (hw₇ : Blank w₇) (h₂ : WTm U o₂ m s₂) (hw₈ : Blank w₈)
    (hw₉ : Blank w₉) (hw₁₀ : Blank w₁₀) (I : Items (WAsg U) as s₃) (ht : WTail U true .closed l tl e) :
    RdStm U dbg e (.step n v c m (some as) l)
        (c!"step" ++ (w₁ ++ (n.toList ++ (w₂ ++ (b ++ (w₃ ++ ('{' :: (w₄ ++ (s₁ ++ (w₅ ++ ('}' :: (w₆ ++ ('{' :: (w₇ ++
          (s₂ ++ (w₈ ++ ('}' :: (w₉ ++ ('{' :: (w₁₀ ++ (s₃ ++ ('}' :: tl)))))))))))))))))))))) := by
  intro w r f
  obtain ⟨p, q, u, hu, ⟨x₃, ps, rfl, h3⟩, h, hq⟩ := tail_gen (dbg := dbg) (a := .opt (.call .assignements))
    (t := '{' :: (w₁₀ ++ (s₃ ++ ['}'])))
    (P := fun p => ∃ x ps, p = [.node .assignements x ps] ∧ cAll (cAsg dbg) ps = .ok as) ht f
    (fun w' r' f' => by
      obtain ⟨ps, h1, h2⟩ := listOf_ok (opn := c!"{") (elem_asg (U := U) (dbg := dbg))
        (solid_cons rfl (by decide) (by decide) (by decide)) (by decide) I hw₁₀ (w' ++ r')
      exact ⟨_, w', f'.blank.1, by simpa using ok_opt1 (ok_call' (r := .assignements) h1), _, _, rfl, cAll_ok h2⟩)
  obtain ⟨p₂, c₂, ok₂⟩ := bracketed_ok (rdT (dbg := dbg) h₂) hw₇ hw₈ (w₉ ++ ('{' :: (w₁₀ ++ (s₃ ++ '}' :: (tl ++ (w ++ r))))))
  have e := ok_then ok₂ hw₉ (solid_brace _) (by simpa using h)
  obtain ⟨x, p₁, hx, c₁, h⟩ := step_front (dbg := dbg) hn hw₁ hw₂ hb hw₃ hw₄ h₁ hw₅ hw₆ (solid_brace _) e
  have h1 := ok_call' (r := .content) (alt2 (no_declaration rfl rfl rfl) (ok_alt1 (ok_call' (r := .step) h)))
  refine ⟨_, _, u, hu, by simpa using h1, ?_⟩
  rcases hq with ⟨rfl, rfl⟩ | ⟨x₄, ps₄, rfl, hc⟩
  · simp [cStm, cInside, chk, Pair.rule, Pair.kids, cStep, cName_ok, hx, c₁, c₂, cStepEnd, Out.bind, cAsgs, h3]
  · simp [cStm, cInside, chk, Pair.rule, Pair.kids, cStep, cName_ok, hx, c₁, c₂, cStepEnd, Out.bind, cAsgs, h3, hc]

/-! ### Orders -/

theorem term_hd {o : Bool} {t : Tm} {s : Tx} (h : Rd U dbg o t s) {c : Char} (h0 : letter U c = false) (h1 : c ≠ '_') (h2 : c ≠ '(')
    (h3 : c ≠ '∀') (h4 : c ≠ '∃') (w r : Tx) (f : Fol U o w r) : hd (s ++ (w ++ r)) ≠ c := by
  intro e
  obtain ⟨p, v, _, hok, _⟩ := h.2 w r f
  have := no_term (U := U) (t := s ++ (w ++ r)) (by rw [e]; exact h0) (by rw [e]; exact h1) (by rw [e]; exact h2)
    (by rw [e]; exact h3) (by rw [e]; exact h4)
  cases hok.unique this

theorem ord_ok {op : OrderOp} {q : Tx} (h : WOrd op q) {rest : Tx} (hr : hd rest ≠ '>') : ∃ x, cOrdOp dbg x = .ok op ∧
    Ok (gram U) (.call .ordering_operation) (q ++ rest) [x] rest := by
  cases h with
  | inc => exact ⟨_, by simp [cOrdOp, cOne, chk, Pair.rule, Pair.kids], ok_call' (ok_alt1 (ok_call ok_lit))⟩
  | lt =>
    refine ⟨_, by simp [cOrdOp, cOne, chk, Pair.rule, Pair.kids], ok_call' (alt2 (no_call (no_lit ?_)) (ok_alt1 (ok_call ok_lit)))⟩
    cases rest with
    | nil => rfl
    | cons c r =>
      have : ('>' == c) = false := by rw [beq_eq_false_iff_ne]; exact fun e => hr e.symm
      simp [List.isPrefixOf, this]
  | gt => exact ⟨_, by simp [cOrdOp, cOne, chk, Pair.rule, Pair.kids], ok_call' (alt2 (no_call (no_lit rfl))
      (alt2 (no_call (no_lit rfl)) (ok_call ok_lit)))⟩

theorem ord_hd {op : OrderOp} {q : Tx} (h : WOrd op q) (rest : Tx) : ∃ c r, q ++ rest = c :: r ∧ (c = '<' ∨ c = '>') := by
  cases h
  · exact ⟨_, _, rfl, .inl rfl⟩
  · exact ⟨_, _, rfl, .inl rfl⟩
  · exact ⟨_, _, rfl, .inr rfl⟩

/-- The pairs of an order. -/
def OrdPairs (dbg : Bool) (g : Option Tm) (t₁ : Tm) (op : OrderOp) (t₂ : Tm) (ps : List Pair) : Prop :=
  ∃ p₁ x p₂ : Pair, p₁.rule = .term ∧ cTerm dbg p₁ = .ok t₁ ∧ cOrdOp dbg x = .ok op ∧ cTerm dbg p₂ = .ok t₂ ∧
    (match g with
    | none => ps = [p₁, x, p₂]
    | some g => ∃ y k z, cTerm dbg k = .ok g ∧ ps = [.node .order_guard y (k :: z), p₁, x, p₂])

theorem order_plain {o₁ o₂ : Bool} {t₁ t₂ : Tm} {op : OrderOp} {q s₁ w₁ w₂ s₂ : Tx} (h₁ : WTm U o₁ t₁ s₁) (hw₁ : Blank w₁)
    (hq : WOrd op q) (hw₂ : Blank w₂) (h₂ : WTm U o₂ t₂ s₂) {w r : Tx} (f : Fol U o₂ w r) :
    ∃ p₁ x p₂ v, Blank v ∧ p₁.rule = .term ∧ cTerm dbg p₁ = .ok t₁ ∧ cOrdOp dbg x = .ok op ∧ cTerm dbg p₂ = .ok t₂ ∧
      Solid (s₁ ++ (w₁ ++ (q ++ (w₂ ++ (s₂ ++ (w ++ r)))))) ∧
      No (gram U) (.call .order_guard) (s₁ ++ (w₁ ++ (q ++ (w₂ ++ (s₂ ++ (w ++ r)))))) ∧
      Ok (gram U) (.call .term ~~ .call .ordering_operation ~~ .call .term)
        (s₁ ++ (w₁ ++ (q ++ (w₂ ++ (s₂ ++ (w ++ r)))))) [p₁, x, p₂] (v ++ r) := by
  have hr : hd (w₂ ++ (s₂ ++ (w ++ r))) ≠ '>' := by
    cases w₂ with
    | nil => exact term_hd (rdT (dbg := dbg) h₂) rfl (by decide) (by decide) (by decide) (by decide) w r f
    | cons d w₂ =>
      intro e
      cases hw₂ with
      | ws _ _ hc _ => rw [show d = '>' from e] at hc; cases hc
      | c => cases e
      | ml => cases e
  obtain ⟨x, hx, okx⟩ := ord_ok (U := U) (dbg := dbg) hq hr
  obtain ⟨c, r', hc, hcc⟩ := ord_hd hq (w₂ ++ (s₂ ++ (w ++ r)))
  have hs : Solid (q ++ (w₂ ++ (s₂ ++ (w ++ r)))) := by
    rw [hc]; rcases hcc with rfl | rfl <;> exact solid_cons rfl (by decide) (by decide) (by decide)
  have hf : Fol U o₁ w₁ (q ++ (w₂ ++ (s₂ ++ (w ++ r)))) := by
    rw [hc] at hs ⊢
    rcases hcc with rfl | rfl <;> exact Fol.sym hw₁ hs rfl (by decide)
  obtain ⟨p₁, v₁, hv₁, ok₁, c₁⟩ := (rdT (dbg := dbg) h₁).2 w₁ _ hf
  obtain ⟨p₂, v₂, hv₂, ok₂, c₂⟩ := (rdT (dbg := dbg) h₂).2 w r f
  refine ⟨p₁, x, p₂, v₂, hv₂, call_rule ok₁, c₁, hx, c₂, (rdT (dbg := dbg) h₁).1 _, ?_, ?_⟩
  · refine no_call (no_then2 ok₁ hv₁ hs (no_call (no_lit_hd ?_)))
    rw [hc]
    rcases hcc with rfl | rfl <;> simp [hd]
  · exact ok_then ok₁ hv₁ hs (ok_then okx hw₂ ((rdT (dbg := dbg) h₂).1 _) ok₂)

theorem order_ok {o : Bool} {g : Option Tm} {t₁ t₂ : Tm} {op : OrderOp} {s : Tx} (h : WOrder U o g t₁ op t₂ s) {w r : Tx}
    (f : Fol U o w r) : Solid (s ++ (w ++ r)) ∧ ∃ ps v, Blank v ∧ OrdPairs dbg g t₁ op t₂ ps ∧
      Ok (gram U) innerOrder (s ++ (w ++ r)) ps (v ++ r) := by
  cases h with
  | plain o₁ o₂ t₁ t₂ op q s₁ w₁ w₂ s₂ h₁ hw₁ hq hw₂ h₂ =>
    obtain ⟨p₁, x, p₂, v, hv, hr, c₁, hx, c₂, hs, hno, hok⟩ := order_plain (dbg := dbg) h₁ hw₁ hq hw₂ h₂ f
    simp only [List.append_assoc]
    exact ⟨hs, _, v, hv, ⟨p₁, x, p₂, hr, c₁, hx, c₂, rfl⟩, ok_then (w := []) (ok_opt0 hno) .nil hs hok⟩
  | guard o₀ o₂ g t₁ t₂ op s₀ w₀ w₀' s hg hw₀ hw₀' h =>
    cases h with
    | plain o₁ o₂ t₁ t₂ op q s₁ w₁ w₂ s₂ h₁ hw₁ hq hw₂ h₂ =>
      obtain ⟨p₁, x, p₂, v, hv, hr, c₁, hx, c₂, hs, hno, hok⟩ := order_plain (dbg := dbg) h₁ hw₁ hq hw₂ h₂ f
      have hi : Solid (c!"=>" ++ (w₀' ++ (s₁ ++ (w₁ ++ (q ++ (w₂ ++ (s₂ ++ (w ++ r)))))))) :=
        solid_cons rfl (by decide) (by decide) (by decide)
      obtain ⟨k, v₀, hv₀, ok₀, c₀⟩ := (rdT (dbg := dbg) hg).2 w₀ (c!"=>" ++ (w₀' ++ (s₁ ++ (w₁ ++ (q ++ (w₂ ++ (s₂ ++ (w ++ r))))))))
        (Fol.sym hw₀ hi rfl (by decide))
      have e := ok_call' (r := .order_guard) (ok_then ok₀ hv₀ hi (ok_call (r := .implies) ok_lit))
      simp only [List.append_assoc]
      exact ⟨(rdT (dbg := dbg) hg).1 _, _, v, hv, ⟨p₁, x, p₂, hr, c₁, hx, c₂, _, _, _, c₀, rfl⟩,
        ok_then (ok_opt1 e) hw₀' hs hok⟩

theorem order_conv {k : AQ} {v : List Bnd} {g : Option Tm} {t₁ t₂ : Tm} {op : OrderOp} {l : List String} {y : Tx} {a b : Pair}
    {ps q : List Pair} (ha : cQuant dbg a = .ok k) (hb : cBnds dbg b = .ok v) (hp : OrdPairs dbg g t₁ op t₂ ps)
    (hq : cOpts dbg q = .ok l) {z : Tx} : cStm dbg (.node .content y [.node .order z (a :: b :: (ps ++ q))]) =
      .ok (.order k v g t₁ op t₂ l) := by
  obtain ⟨p₁, x, p₂, hr, c₁, hx, c₂, hp⟩ := hp
  cases g with
  | none =>
    subst hp
    obtain ⟨r, y', z'⟩ := p₁
    have hr' : r = .term := hr
    subst hr'
    simp [cStm, cInside, chk, Pair.rule, Pair.kids, cOrder, ha, hb, c₁, hx, c₂, hq, Out.bind]
  | some g =>
    obtain ⟨_, k', z', hk, rfl⟩ := hp
    simp [cStm, cInside, chk, Pair.rule, Pair.kids, cOrder, ha, hb, Out.bind, hk, c₁, hx, c₂, hq]

theorem no_assertion {t : Tx} (h : (c!"assert").isPrefixOf t = false) : No (gram U) (.call .assertion) t :=
  no_call (no_then1 (no_lit h))

theorem order_front {B : G} {k : AQ} {v : List Bnd} {q₀ w₁ w₂ b w₃ t' t'' : Tx} {q : List Pair} (hq : WQ k q₀) (hw₁ : Blank w₁)
    (hw₂ : Blank w₂) (hb : WBnds U v b) (hw₃ : Blank w₃) (hs : Solid t') (hn : b = [] → hd t' ≠ '(')
    (h : Ok (gram U) B t' q t'') : ∃ x y, cQuant dbg x = .ok k ∧ cBnds dbg y = .ok v ∧
      Ok (gram U) (.lit c!"order" ~~ .call .quantifier_op ~~ .call .typed_arguments ~~ B)
        (c!"order" ++ (w₁ ++ (q₀ ++ (w₂ ++ (b ++ (w₃ ++ t')))))) (x :: y :: q) t'' := by
  obtain ⟨x, hx, okx⟩ := wq_ok (U := U) (dbg := dbg) hq (w₂ ++ (b ++ (w₃ ++ t')))
  obtain ⟨y, hy, h2⟩ := ta_then (dbg := dbg) hw₂ hb hw₃ okx hs hn h
  exact ⟨x, y, hx, hy, ok_lit_then hw₁ (wq_no (U := U) hq _).2.2.2 h2⟩

theorem rs_order_of {e : End} {k : AQ} {v : List Bnd} {g : Option Tm} {t₁ t₂ : Tm} {op : OrderOp} {l : List String}
    {q₀ w₁ w₂ b w₃ s tl : Tx} {al : Bool} {e₀ : End} (hq : WQ k q₀) (hw₁ : Blank w₁) (hw₂ : Blank w₂) (hb : WBnds U v b)
    (hw₃ : Blank w₃) (ht : WTail U al e₀ l tl e)
    (h : ∀ w r, FolT U al e₀ w r → (Solid (s ++ (w ++ r)) ∧ (b = [] → hd (s ++ (w ++ r)) ≠ '(')) ∧ ∃ p v, Blank v ∧
      Ok (gram U) (.alt innerOrder (.lit c!"{" ~~ innerOrder ~~ .lit c!"}")) (s ++ (w ++ r)) p (v ++ r) ∧
      OrdPairs dbg g t₁ op t₂ p) :
    RdStm U dbg e (.order k v g t₁ op t₂ l) (c!"order" ++ (w₁ ++ (q₀ ++ (w₂ ++ (b ++ (w₃ ++ (s ++ tl))))))) := by
  intro w r f
  obtain ⟨p, q, u, hu, hp, hql, hok⟩ := tail_then (dbg := dbg) ht f (fun w' r' f' => (h w' r' f').2)
  have hsn : Solid (s ++ (tl ++ (w ++ r))) ∧ (b = [] → hd (s ++ (tl ++ (w ++ r))) ≠ '(') := by
    cases ht with
    | none => exact (h w r (.inl f)).1
    | some l w₄ w₅ s' hal hw₄ hw₅ I =>
      have := (h w₄ ('[' :: (w₅ ++ (s' ++ ']' :: (w ++ r)))) (.inr ⟨hal, hw₄, _, rfl⟩)).1
      simpa using this
  obtain ⟨x, y, hx, hy, h2⟩ := order_front (dbg := dbg) hq hw₁ hw₂ hb hw₃ hsn.1 hsn.2 hok
  have h1 := ok_call' (r := .content) (alt2 (no_declaration rfl rfl rfl) (alt2 (no_call (no_then1 (no_lit rfl)))
    (alt2 (no_assertion rfl) (ok_alt1 (ok_call' (r := .order) h2)))))
  exact ⟨_, _, u, hu, by simpa using h1, order_conv hx hy hp hql⟩

theorem rs_order {e : End} {o : Bool} {k : AQ} {v : List Bnd} {g : Option Tm} {t₁ t₂ : Tm} {op : OrderOp} {l : List String}
    {q₀ w₁ w₂ b w₃ w₄ s w₅ tl : Tx} (hq : WQ k q₀) (hw₁ : Blank w₁) (hw₂ : Blank w₂) (hb : WBnds U v b) (hw₃ : Blank w₃)
    (hw₄ : Blank w₄) (h : WOrder U o g t₁ op t₂ s) (hw₅ : Blank w₅) (ht : WTail U true .closed l tl e) :
    RdStm U dbg e (.order k v g t₁ op t₂ l)
        (c!"order" ++ (w₁ ++ (q₀ ++ (w₂ ++ (b ++ (w₃ ++ ('{' :: (w₄ ++ (s ++ (w₅ ++ ('}' :: tl))))))))))) := by
  have := rs_order_of (dbg := dbg) (g := g) (t₁ := t₁) (op := op) (t₂ := t₂) (s := '{' :: (w₄ ++ (s ++ (w₅ ++ ['}'])))) hq hw₁ hw₂
    hb hw₃ ht (fun w r f => by
      have hcl : Solid ('}' :: (w ++ r)) := solid_cons rfl (by decide) (by decide) (by decide)
      obtain ⟨hs, ps, v, hv, hp, hok⟩ := order_ok (dbg := dbg) h (Fol.sym (o := o) hw₅ hcl rfl (by decide))
      refine ⟨⟨solid_brace _, fun _ => by simp [hd]⟩, ps, w, f.blank.1, ?_, hp⟩
      have hnt : ∀ t, No (gram U) (.call .term) ('{' :: t) := fun t =>
        no_term_sym rfl (by decide) (by decide) (by decide) (by decide)
      have := ok_lit_then (gr := gram U) (k := c!"{") hw₄ hs (ok_then hok hv hcl (ok_lit (s := c!"}") (t := w ++ r)))
      have h2 := alt2 (gr := gram U) (a := innerOrder) (no_then2 (w := []) (ok_opt0 (no_call (no_then1 (hnt _)))) .nil (solid_brace _)
        (no_then1 (hnt _))) this
      simpa using h2)
  simpa using this

theorem rs_order' {e : End} {o : Bool} {k : AQ} {v : List Bnd} {g : Option Tm} {t₁ t₂ : Tm} {op : OrderOp} {l : List String}
    {q₀ w₁ w₂ b w₃ s tl : Tx} (hq : WQ k q₀) (hw₁ : Blank w₁) (hw₂ : Blank w₂) (hb : WBnds U v b) (hw₃ : Blank w₃)
    (hn : b = [] → hd s ≠ '(') (h : WOrder U o g t₁ op t₂ s) (ht : WTail U (!o) (.of o) l tl e) :
    RdStm U dbg e (.order k v g t₁ op t₂ l) (c!"order" ++ (w₁ ++ (q₀ ++ (w₂ ++ (b ++ (w₃ ++ (s ++ tl))))))) := by
  refine rs_order_of hq hw₁ hw₂ hb hw₃ ht (fun w r f => ?_)
  obtain ⟨hs, ps, v, hv, hp, hok⟩ := order_ok (dbg := dbg) h f.fol
  refine ⟨⟨hs, fun hb => ?_⟩, ps, v, hv, ok_alt1 hok, hp⟩
  have hne : s ≠ [] := by
    intro e
    cases h with
    | plain o₁ o₂ t₁ t₂ op q s₁ w₁ w₂ s₂ h₁ hw₁ hq hw₂ h₂ => cases hq <;> simp at e
    | guard o o₂ g t₁ t₂ op s₀ w w' s hg hw hw' h => simp at e
  cases s with
  | nil => exact absurd rfl hne
  | cons c s => exact hn hb

/-! ### Assertions -/

theorem fns_ok {l : List String} {s : Tx} (I : WFns U l s) {w r : Tx} (hw : Blank w) (hs : Solid r)
    (h0 : idc U (hd (w ++ r)) = false) (hr : letter U (hd r) = false) :
    idc U (hd (s ++ (w ++ r))) = false ∧ ∃ ps v, Blank v ∧ List.Forall₂ (fun p f => cName dbg .function p = .ok f ∧ p.rule = .function) ps l ∧
      Ok (gram U) (.star (.seq skipG (.call .function))) (s ++ (w ++ r)) ps (v ++ r) := by
  induction I with
  | nil =>
    exact ⟨h0, [], w, hw, .nil, ok_star0 (no_seq2 (t := w ++ r) (skip_ok hw hs) (no_name rfl hr))⟩
  | cons f l w' s hw' hn hf _ ih =>
    obtain ⟨ih0, ps, v, hv, h1, h2⟩ := ih
    have hs : Solid (f.toList ++ (s ++ (w ++ r))) := solid_id hf
    simp only [List.append_assoc]
    exact ⟨(blank_hd hw' hn).1, _, v, hv, .cons ⟨by simp [cName_ok], rfl⟩ h1,
      ok_star1 (ok_seq (p := []) (skip_ok hw' hs) (name_ok rfl hf ih0)) h2⟩

theorem rs_crypto {e : End} {n : String} {f l : List String} {w s tl : Tx} (hn : IdTx U n.toList) (hw : Blank w) (I : WFns U f s)
    (ht : WTail U true .semi l tl e) : RdStm U dbg e (.crypto n f l) (c!"assert-crypto" ++ (w ++ (n.toList ++ (s ++ tl)))) := by
  intro w' r fo
  have key : ∀ w' r', FolT U true .semi w' r' → idc U (hd (s ++ (w' ++ r'))) = false ∧
      ∃ ps, List.Forall₂ (fun p f => cName dbg .function p = .ok f ∧ p.rule = .function) ps f ∧ ∃ w₀ t v, Blank w₀ ∧ Solid t ∧ Blank v ∧
        s ++ (w' ++ r') = w₀ ++ t ∧ Ok (gram U) (many (.call .function)) t ps (v ++ r') := by
    intro w' r' f'
    obtain ⟨hb, hs⟩ := f'.blank
    have h0 : idc U (hd (w' ++ r')) = false ∧ letter U (hd r') = false := by
      rcases f' with f' | ⟨_, hw', x, rfl⟩
      · exact f'.semi rfl
      · exact ⟨hd_sym rfl hw', rfl⟩
    refine ⟨(fns_ok (dbg := dbg) I hb hs h0.1 h0.2).1, ?_⟩
    cases I with
    | nil => exact ⟨[], .nil, w', r', [], hb, hs, .nil, rfl, ok_opt0 (no_seq1 (no_name rfl h0.2))⟩
    | cons f l w₀ s hw₀ hn hf I =>
      obtain ⟨hi, ps, v, hv, h1, h2⟩ := fns_ok (dbg := dbg) I hb hs h0.1 h0.2
      refine ⟨.node .function f.toList [.node .ident f.toList []] :: ps, .cons ⟨by simp [cName_ok], rfl⟩ h1, w₀, f.toList ++ (s ++ (w' ++ r')), v, hw₀, solid_id hf, hv, by simp only [List.append_assoc], ?_⟩
      exact ok_opt1 (ok_seq (name_ok (k := .function) rfl hf hi) h2)
  have hnt : No (gram U) (.call .assertion) (c!"assert-crypto" ++ (w ++ (n.toList ++ (s ++ (tl ++ (w' ++ r)))))) :=
    no_call (no_lit_then (k := c!"assert") (w := []) (t' := c!"-crypto" ++ (w ++ (n.toList ++ (s ++ (tl ++ (w' ++ r)))))) .nil
      (solid_cons rfl (by decide) (by decide) (by decide))
      (no_call (no_then1 (no_term_sym rfl (by decide) (by decide) (by decide) (by decide)))))
  -- what is read
  have main : ∃ ps q v, Blank v ∧ List.Forall₂ (fun p f => cName dbg .function p = .ok f ∧ p.rule = .function) ps f ∧
      ((q = [] ∧ l = []) ∨ ∃ x ps, q = [.node .options x ps] ∧ cOptions dbg (.node .options x ps) = .ok l) ∧
      Ok (gram U) (.call .ident ~~ many (.call .function) ~~ .opt (.call .options)) (n.toList ++ (s ++ (tl ++ (w' ++ r))))
        (.node .ident n.toList [] :: (ps ++ q)) (v ++ r) := by
    cases ht with
    | none =>
      obtain ⟨hi, ps, hps, w₀, t, v, hw₀, hst, hv, e, hok⟩ := key w' r (.inl fo)
      refine ⟨ps, [], [], .nil, hps, .inl ⟨rfl, rfl⟩, ?_⟩
      have h1 := ident_ok hn hi
      rw [e] at h1
      simp only [List.nil_append]
      rw [e]
      have := ok_then h1 hw₀ hst (ok_then hok hv fo.solid (ok_opt0 (no_options (fo.hd rfl (by decide) (by decide)))))
      simpa using this
    | some l w₁ w₂ s' hal hw₁ hw₂ I' =>
      obtain ⟨x, ps', h1, h2⟩ := options_ok (dbg := dbg) hw₂ I' (w' ++ r)
      obtain ⟨hi, ps, hps, w₀, t, v, hw₀, hst, hv, e, hok⟩ := key w₁ ('[' :: (w₂ ++ (s' ++ ']' :: (w' ++ r)))) (.inr ⟨hal, hw₁, _, rfl⟩)
      refine ⟨ps, _, w', fo.blank, hps, .inr ⟨x, ps', rfl, h2⟩, ?_⟩
      have h3 := ident_ok hn hi
      have := ok_then (by rw [e] at h3; exact h3) hw₀ hst (ok_then hok hv (solid_cons rfl (by decide) (by decide) (by decide)) (ok_opt1 h1))
      rw [← e] at this
      simpa using this
  obtain ⟨ps, q, v, hv, hps, hq, hok⟩ := main
  have h1 := ok_call' (r := .content) (alt2 (no_declaration rfl rfl rfl) (alt2 (no_call (no_then1 (no_lit rfl)))
    (alt2 hnt (alt2 (no_call (no_then1 (no_lit rfl))) (alt2 (no_call (no_then1 (no_lit rfl))) (alt2 (no_call (no_then1 (no_lit rfl)))
    (ok_alt1 (ok_call' (r := .assertion_crypto) (ok_lit_then (k := c!"assert-crypto") hw (solid_id hn) hok)))))))))
  refine ⟨_, _, v, hv, by simpa using h1, ?_⟩
  have hall : cAll (cName dbg .function) ps = .ok f := cAll_ok (by
    clear * - hps
    induction hps with
    | nil => exact .nil
    | cons h _ ih => exact .cons h.1 ih)
  rcases hq with ⟨rfl, rfl⟩ | ⟨x, ps', rfl, hc⟩
  · simp only [cStm, cInside, chk, Pair.rule, Pair.kids, cCrypto, cIdent, Pair.text]
    simp [Out.bind]
    cases hl : ps.getLast? with
    | none =>
      rw [List.getLast?_eq_none_iff] at hl
      subst hl
      cases hps
      rfl
    | some o =>
      have ho : o.rule = .function := by
        have hm := List.mem_of_getLast? hl
        clear * - hps hm
        induction hps with
        | nil => cases hm
        | cons h _ ih =>
          rcases List.mem_cons.1 hm with rfl | hm
          · exact h.2
          · exact ih hm
      obtain ⟨r', y', z'⟩ := o
      have ho' : r' = .function := ho
      subst ho'
      simp [hall]
  · simp only [cStm, cInside, chk, Pair.rule, Pair.kids, cCrypto, cIdent, Pair.text]
    simp [Out.bind, Pair.rule, hc, hall]

theorem rs_assert {e : End} {o : Bool} {k : AKind} {t : Tm} {l : List String} {w s tl : Tx} (hw : Blank w) (h : WTm U o t s)
    (ht : WTail U (!o) (.of o) l tl e) : RdStm U dbg e (.assert k t l) (k.kw ++ (w ++ (s ++ tl))) := by
  intro w' r f
  obtain ⟨p, q, v, hv, ⟨p', rfl, hp⟩, hq, hok⟩ := tail_then (dbg := dbg) (a := .call .term) (t := s)
    (P := fun p => ∃ p', p = [p'] ∧ cTerm dbg p' = .ok t) ht f
    (fun w' r' f' => by
      obtain ⟨p, v, hv, h1, h2⟩ := (rdT (dbg := dbg) h).2 w' r' f'.fol
      exact ⟨_, v, hv, h1, p, rfl, h2⟩)
  have h0 := fun kw => ok_lit_then (gr := gram U) (k := kw) hw ((rdT (dbg := dbg) h).1 _) (ok_call' (r := .assertion_inner) hok)
  cases k with
  | assert =>
    have h1 := ok_call' (r := .content) (alt2 (no_declaration rfl rfl rfl) (alt2 (no_call (no_then1 (no_lit rfl)))
      (ok_alt1 (ok_call' (r := .assertion) (h0 c!"assert")))))
    refine ⟨_, _, v, hv, by simpa [AKind.kw] using h1, ?_⟩
    simp [cStm, cInside, chk, Pair.rule, Pair.kids, cAssert, cAssertion, hp, hq, Out.bind]
  | query =>
    have h1 := ok_call' (r := .content) (alt2 (no_declaration rfl rfl rfl) (alt2 (no_call (no_then1 (no_lit rfl)))
      (alt2 (no_assertion rfl) (alt2 (no_call (no_then1 (no_lit rfl))) (ok_alt1 (ok_call' (r := .query) (h0 c!"query")))))))
    refine ⟨_, _, v, hv, by simpa [AKind.kw] using h1, ?_⟩
    simp [cStm, cInside, chk, Pair.rule, Pair.kids, cAssert, cAssertion, hp, hq, Out.bind]
  | «lemma» =>
    have h1 := ok_call' (r := .content) (alt2 (no_declaration rfl rfl rfl) (alt2 (no_call (no_then1 (no_lit rfl)))
      (alt2 (no_assertion rfl) (alt2 (no_call (no_then1 (no_lit rfl))) (alt2 (no_call (no_then1 (no_lit rfl)))
      (ok_alt1 (ok_call' (r := .«lemma») (h0 c!"lemma"))))))))
    refine ⟨_, _, v, hv, by simpa [AKind.kw] using h1, ?_⟩
    simp [cStm, cInside, chk, Pair.rule, Pair.kids, cAssert, cAssertion, hp, hq, Out.bind]

theorem rs_mac {e : End} {o : Bool} {n : String} {v : List Bnd} {t : Tm} {l : List String} {w₁ w₂ b w₃ w₄ s tl : Tx}
    (hn : IdTx U n.toList) (hw₁ : Blank w₁) (hw₂ : Blank w₂) (hb : WBnds U v b) (hw₃ : Blank w₃) (hw₄ : Blank w₄) (h : WTm U o t s)
    (ht : WTail U (!o) (.of o) l tl e) : RdStm U dbg e (.mac n v t l)
      (c!"let" ++ (w₁ ++ (n.toList ++ ('!' :: (w₂ ++ (b ++ (w₃ ++ ('=' :: (w₄ ++ (s ++ tl)))))))))) := by
  intro w' r f
  obtain ⟨p, q, u, hu, ⟨p', rfl, hp⟩, hq, hok⟩ := tail_then (dbg := dbg) (a := .call .term) (t := s)
    (P := fun p => ∃ p', p = [p'] ∧ cTerm dbg p' = .ok t) ht f
    (fun w' r' f' => by
      obtain ⟨p, v, hv, h1, h2⟩ := (rdT (dbg := dbg) h).2 w' r' f'.fol
      exact ⟨_, v, hv, h1, p, rfl, h2⟩)
  have h0 := ok_lit_then (gr := gram U) (k := c!"=") hw₄ ((rdT (dbg := dbg) h).1 _) hok
  obtain ⟨x, hx, h2⟩ := ta_then (dbg := dbg) hw₂ hb hw₃ (macro_name_ok (rest := w₂ ++ (b ++ (w₃ ++ '=' :: (w₄ ++ (s ++ (tl ++ (w' ++ r))))))) hn)
    (solid_cons rfl (by decide) (by decide) (by decide)) (fun _ => by simp [hd]) h0
  have h3 := ok_lit_then (k := c!"let") hw₁ (solid_id hn) h2
  have h1 := ok_call' (r := .content) (alt2 (no_declaration rfl rfl rfl) (alt2 (no_call (no_then1 (no_lit rfl)))
    (alt2 (no_assertion rfl) (alt2 (no_call (no_then1 (no_lit rfl))) (alt2 (no_call (no_then1 (no_lit rfl)))
    (alt2 (no_call (no_then1 (no_lit rfl))) (alt2 (no_call (no_then1 (no_lit rfl))) (ok_call' (r := .mlet) h3))))))))
  refine ⟨_, _, u, hu, by simpa using h1, ?_⟩
  simp [cStm, cInside, chk, Pair.rule, Pair.kids, cMac, cName_ok, hx, hp, hq, Out.bind]

/-! ### Files -/

theorem rs_all {e : End} {a : Stm} {s : Tx} (h : WStm U e a s) : RdStm U dbg e a s := by
  cases h with
  | type e n l w tl hn hw ht => exact rs_type hn hw ht
  | func e n T a l w₁ w₂ b w₃ w₄ tl hn hT hw₁ hw₂ hb hw₃ hw₄ ht => exact rs_func hn hT hw₁ hw₂ hb hw₃ hw₄ ht
  | cell e n T a l w₁ w₂ b w₃ w₄ tl hn hT hw₁ hw₂ hb hw₃ hw₄ ht => exact rs_cell hn hT hw₁ hw₂ hb hw₃ hw₄ ht
  | step0 o₁ o₂ n v c m w₁ w₂ b w₃ w₄ s₁ w₅ w₆ w₇ s₂ w₈ hn hw₁ hw₂ hb hw₃ hw₄ h₁ hw₅ hw₆ hw₇ h₂ hw₈ =>
    exact rs_step0 hn hw₁ hw₂ hb hw₃ hw₄ h₁ hw₅ hw₆ hw₇ h₂ hw₈
  | step e o₁ o₂ n v c m as l w₁ w₂ b w₃ w₄ s₁ w₅ w₆ w₇ s₂ w₈ w₉ w₁₀ s₃ tl hn hw₁ hw₂ hb hw₃ hw₄ h₁ hw₅ hw₆ hw₇ h₂ hw₈ hw₉ hw₁₀ I ht =>
    exact rs_step hn hw₁ hw₂ hb hw₃ hw₄ h₁ hw₅ hw₆ hw₇ h₂ hw₈ hw₉ hw₁₀ I ht
  | order e o k v g t₁ t₂ op l q w₁ w₂ b w₃ w₄ s w₅ tl hq hw₁ hw₂ hb hw₃ hw₄ h hw₅ ht =>
    exact rs_order hq hw₁ hw₂ hb hw₃ hw₄ h hw₅ ht
  | order' e o k v g t₁ t₂ op l q w₁ w₂ b w₃ s tl hq hw₁ hw₂ hb hw₃ hn h ht => exact rs_order' hq hw₁ hw₂ hb hw₃ hn h ht
  | crypto e n f l w s tl hn hw I ht => exact rs_crypto hn hw I ht
  | assert e o k t l w s tl hw h ht => exact rs_assert hw h ht
  | mac e o n v t l w₁ w₂ b w₃ w₄ s tl hn hw₁ hw₂ hb hw₃ hw₄ h ht => exact rs_mac hn hw₁ hw₂ hb hw₃ hw₄ h ht

theorem stm_hd {e : End} {a : Stm} {s : Tx} (h : WStm U e a s) (r : Tx) : ∃ c s', s ++ r = c :: s' ∧ letter U c = true := by
  cases h with
  | assert e o k t l w s tl hw h ht => cases k <;> exact ⟨_, _, rfl, rfl⟩
  | _ => exact ⟨_, _, rfl, rfl⟩

theorem stms_hd {l : List Stm} {s : Tx} (h : WStms U l s) : ∃ c s', s = c :: s' ∧ letter U c = true := by
  cases h with
  | one e a s w h hw => exact stm_hd h _
  | one' e a s w w' h hw hw' => exact stm_hd h _
  | cons e a l s w s' h _ _ _ _ => exact stm_hd h _
  | cons' e a l s w w' s' h _ _ _ => exact stm_hd h _

/-- The pair of a statement. -/
def IsStm (dbg : Bool) (p : Pair) (a : Stm) : Prop := p.rule = .content ∧ cStm dbg p = .ok a

/-- A statement, then perhaps a `;`. -/
def stmG : G := .call .content ~~ .opt (.lit c!";")

theorem no_stm {t : Tx} (h : letter U (hd t) = false) : No (gram U) stmG t := by
  have h' : ∀ {c : Char} {k : Tx}, letter U c = true → No (gram U) (.lit (c :: k)) t :=
    fun hc => no_lit_hd fun e => by rw [e] at h; rw [hc] at h; cases h
  refine no_then1 (no_call ?_)
  exact alt2 (no_call (alt2 (no_call (no_then1 (h' rfl))) (alt2 (no_call (no_then1 (h' rfl))) (no_call (no_then1 (h' rfl))))))
    (alt2 (no_call (no_then1 (h' rfl))) (alt2 (no_call (no_then1 (h' rfl))) (alt2 (no_call (no_then1 (h' rfl)))
    (alt2 (no_call (no_then1 (h' rfl))) (alt2 (no_call (no_then1 (h' rfl))) (alt2 (no_call (no_then1 (h' rfl)))
    (no_call (no_then1 (h' rfl)))))))))

theorem solid_nil : Solid [] := ⟨rfl, by simp [hd], by simp [hd], by simp [hd]⟩

theorem stm_semi {e : End} {a : Stm} {s : Tx} (h : WStm U e a s) {w r : Tx} (hw : Blank w) :
    ∃ p, IsStm dbg p a ∧ Ok (gram U) stmG (s ++ (w ++ ';' :: r)) [p] r := by
  have hs : Solid (';' :: r) := solid_cons rfl (by decide) (by decide) (by decide)
  obtain ⟨x, k, v, hv, hok, hc⟩ := rs_all (dbg := dbg) h w (';' :: r)
    ⟨hw, hs, .inr (.inl rfl), fun _ => ⟨hd_sym rfl hw, (Fol.sym (U := U) (o := true) hw hs rfl (by decide)).adj rfl |>.2⟩,
      fun _ => ⟨hd_sym rfl hw, rfl⟩⟩
  exact ⟨_, ⟨rfl, hc⟩, ok_then hok hv hs (ok_opt1 (ok_lit (s := c!";")))⟩

theorem stms_ok {l : List Stm} {s : Tx} (h : WStms U l s) :
    (∀ w, Blank w → ∃ ps w', Blank w' ∧ List.Forall₂ (IsStm dbg) ps l ∧
      Ok (gram U) (.star (.seq skipG stmG)) (w ++ s) ps w') ∧
    (∃ ps w', Blank w' ∧ List.Forall₂ (IsStm dbg) ps l ∧ Ok (gram U) (many stmG) s ps w') ∧
    ∃ ps w', Blank w' ∧ List.Forall₂ (IsStm dbg) ps l ∧ Ok (gram U) (many1 stmG) s ps w' := by
  have hsol : ∀ {l : List Stm} {s : Tx}, WStms U l s → Solid s := fun h => by
    obtain ⟨c, s', rfl, hc⟩ := stms_hd h
    exact solid_idc (idc_letter hc)
  have hend : ∀ w, Blank w → Ok (gram U) (.star (.seq skipG stmG)) w [] w := fun w hw => by
    have := no_seq2 (gr := gram U) (skip_ok (s := []) hw solid_nil) (no_stm rfl)
    rw [List.append_nil] at this
    exact ok_star0 this
  have hendm : ∀ {w : Tx}, Blank w → ∀ {t p}, Ok (gram U) stmG t [p] w → Ok (gram U) (many1 stmG) t [p] [] := fun hw t p h => by
    have := ok_then (gr := gram U) (a := stmG) (b := many stmG) (w := _) (t' := []) (by rw [List.append_nil]; exact h) hw solid_nil
      (ok_opt0 (no_seq1 (no_stm rfl)))
    exact this
  -- one statement, then the others
  have hstep : ∀ {a : Stm} {l : List Stm} {t u t' : Tx} {p : Pair}, IsStm dbg p a → Solid t → Blank u → Solid t' →
      Ok (gram U) stmG t [p] (u ++ t') →
      (∀ w, Blank w → ∃ ps w', Blank w' ∧ List.Forall₂ (IsStm dbg) ps l ∧
        Ok (gram U) (.star (.seq skipG stmG)) (w ++ t') ps w') →
      (∃ ps w', Blank w' ∧ List.Forall₂ (IsStm dbg) ps l ∧ Ok (gram U) (many stmG) t' ps w') →
      (∀ w, Blank w → ∃ ps w', Blank w' ∧ List.Forall₂ (IsStm dbg) ps (a :: l) ∧
        Ok (gram U) (.star (.seq skipG stmG)) (w ++ t) ps w') ∧
      (∃ ps w', Blank w' ∧ List.Forall₂ (IsStm dbg) ps (a :: l) ∧ Ok (gram U) (many stmG) t ps w') ∧
      ∃ ps w', Blank w' ∧ List.Forall₂ (IsStm dbg) ps (a :: l) ∧ Ok (gram U) (many1 stmG) t ps w' := by
    intro a l t u t' p hp ht hu ht' hok hst hmn
    refine ⟨fun w hw => ?_, ?_, ?_⟩
    · obtain ⟨ps, w', hw', hps, h⟩ := hst u hu
      exact ⟨p :: ps, w', hw', .cons hp hps, ok_star1 (ok_seq (p := []) (skip_ok hw ht) hok) h⟩
    · obtain ⟨ps, w', hw', hps, h⟩ := hst u hu
      exact ⟨p :: ps, w', hw', .cons hp hps, ok_opt1 (ok_seq hok h)⟩
    · obtain ⟨ps, w', hw', hps, h⟩ := hmn
      exact ⟨p :: ps, w', hw', .cons hp hps, ok_then hok hu ht' h⟩
  have hlast : ∀ {a : Stm} {t u : Tx} {p : Pair}, IsStm dbg p a → Solid t → Blank u → Ok (gram U) stmG t [p] u →
      (∀ w, Blank w → ∃ ps w', Blank w' ∧ List.Forall₂ (IsStm dbg) ps [a] ∧
        Ok (gram U) (.star (.seq skipG stmG)) (w ++ t) ps w') ∧
      (∃ ps w', Blank w' ∧ List.Forall₂ (IsStm dbg) ps [a] ∧ Ok (gram U) (many stmG) t ps w') ∧
      ∃ ps w', Blank w' ∧ List.Forall₂ (IsStm dbg) ps [a] ∧ Ok (gram U) (many1 stmG) t ps w' := by
    intro a t u p hp ht hu hok
    refine ⟨fun w hw => ?_, ?_, ?_⟩
    · exact ⟨[p], u, hu, .cons hp .nil, ok_star1 (ok_seq (p := []) (skip_ok hw ht) hok) (hend u hu)⟩
    · exact ⟨[p], u, hu, .cons hp .nil, ok_opt1 (ok_seq hok (hend u hu))⟩
    · exact ⟨[p], [], .nil, .cons hp .nil, hendm hu hok⟩
  induction h with
  | one e a s w h hw =>
    have hd0 : idc U (hd (w ++ [])) = false ∧ hd (w ++ []) ≠ '!' := by
      cases w with
      | nil => exact ⟨rfl, by simp [hd]⟩
      | cons d w => exact ⟨(blank_hd hw (by simp)).1, (blank_hd (U := U) hw (by simp)).2.1⟩
    obtain ⟨x, k, v, hv, hok, hc⟩ := rs_all (dbg := dbg) h w [] ⟨hw, solid_nil, .inl rfl, fun _ => hd0, fun _ => ⟨hd0.1, rfl⟩⟩
    rw [List.append_nil] at hok
    have := ok_then hok hv solid_nil (ok_opt0 (no_lit (s := c!";") rfl))
    refine hlast ⟨rfl, hc⟩ (hsol (.one e a s w h hw)) .nil this
  | one' e a s w w' h hw hw' =>
    obtain ⟨p, hp, hok⟩ := stm_semi (dbg := dbg) (r := w') h hw
    exact hlast hp (hsol (.one' e a s w w' h hw hw')) hw' hok
  | cons e a l s w s' h hw hn hns hl ih =>
    obtain ⟨c, t', rfl, hcl⟩ := stms_hd hl
    have hs' : Solid (c :: t') := hsol hl
    obtain ⟨x, k, v, hv, hok, hc⟩ := rs_all (dbg := dbg) h w (c :: t') ⟨hw, hs', .inr (.inr hcl),
      fun he => ⟨(blank_hd hw (hn he)).1, (blank_hd (U := U) hw (hn he)).2.1⟩, fun he => absurd he hns⟩
    have := ok_then hok hv hs' (ok_opt0 (no_lit_hd (a := ';') (s := []) (t := c :: t') (ne_of_letter hcl rfl)))
    exact hstep ⟨rfl, hc⟩ (hsol (.cons e a l s w _ h hw hn hns hl)) (u := []) .nil hs' this ih.1 ih.2.1
  | cons' e a l s w w' s' h hw hw' hl ih =>
    obtain ⟨p, hp, hok⟩ := stm_semi (dbg := dbg) (r := w' ++ s') h hw
    exact hstep hp (hsol (.cons' e a l s w w' s' h hw hw' hl)) hw' (hsol hl) hok ih.1 ih.2.1

end
end Txt2

open Txt2 in
/-- **C72.** A file is read as it was written, whatever the layout: any blanks and comments between the words (and none where the
words do not stick together), any of the brackets, keywords and symbols that mean the same, with or without the optional `;`,
commas and brackets. Both in debug and in release builds, and for any Unicode letters. -/
theorem C72_file_read (dbg : Bool) (U : Char → Bool) (l : List Stm) (s : Tx) (h : WFile U l s) :
    ∃ n, ∀ m, n ≤ m → readFile dbg U m s = some (.ok l) := by
  obtain ⟨w, s', hw, hs, rfl⟩ := h
  obtain ⟨c, t', rfl, hc⟩ := stms_hd hs
  obtain ⟨-, -, ps, w', hw', hps, hok⟩ := stms_ok (dbg := dbg) hs
  have hsol : Solid (c :: t') := solid_idc (idc_letter hc)
  have heoi : Ok (gram U) (.call .EOI) [] [.node .EOI [] []] [] := ok_call (r := .EOI) (s := []) (t' := []) (ok_neg no_chr_nil)
  have h1 := ok_lit_then (gr := gram U) (k := []) hw hsol (ok_then (w := w') (t' := []) (by rw [List.append_nil]; exact hok) hw'
    solid_nil heoi)
  obtain ⟨n, hn⟩ := ok_call' (r := .file) h1
  refine ⟨n, fun m hm => ?_⟩
  have := run_le hn hm
  simp only [List.nil_append] at this
  rw [readFile, this]
  simp only [Pair.kids]
  have hf : (ps ++ [Pair.node .EOI [] []]).filter (fun p => decide (p.rule = .content)) = ps := by
    rw [List.filter_append]
    have h2 : [Pair.node .EOI [] []].filter (fun p => decide (p.rule = .content)) = [] := rfl
    rw [h2, List.append_nil, List.filter_eq_self]
    intro p hp
    clear * - hps hp
    induction hps with
    | nil => cases hp
    | cons h _ ih =>
      rcases List.mem_cons.1 hp with rfl | hp
      · simp [h.1]
      · exact ih hp
  rw [hf]
  refine congrArg some (cAll_ok ?_)
  clear * - hps
  induction hps with
  | nil => exact .nil
  | cons h _ ih => exact .cons h.2 ih

namespace Txt2
end Txt2
end CV
