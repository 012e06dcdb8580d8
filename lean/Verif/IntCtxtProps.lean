import Verif.IntCtxt
import Verif.SubtermProps
set_option linter.unusedSimpArgs false
/-
C64: the axioms generated for integrity of ciphertexts.
-/
namespace CV
namespace Cry
open Dep SmtM Ev Fm
variable {F D : Type}

/-! ## Specification -/

/-- SPECIFICATION. The parts of a term in which a key occurs otherwise than to encrypt or decrypt: all arguments,
except the third of `enc` and the second of `dec` when it is (or may become, being a variable) the cast of a name. -/
inductive CtxtPart (enc dec cast : F) : Fm F → Fm F → Prop
  | other {f args a} (h1 : f ≠ enc) (h2 : f ≠ dec) (h : a ∈ args) : CtxtPart enc dec cast (.app f args) a
  | decArgs {args a} (h : a ∈ args.take 1) : CtxtPart enc dec cast (.app dec args) a
  | decKey {args a g as} (hk : args[1]? = some (.app g as)) (hg : g ≠ cast) (h : a ∈ args) :
      CtxtPart enc dec cast (.app dec args) a
  | encArgs {args a} (h : a ∈ args.take 2) : CtxtPart enc dec cast (.app enc args) a
  | encKey {args a g as} (hk : args[2]? = some (.app g as)) (hg : g ≠ cast) (h : a ∈ args) :
      CtxtPart enc dec cast (.app enc args) a

/-- SPECIFICATION. The parts of a term in which a name occurs otherwise than as the randomness of an encryption. -/
inductive RandPart (enc cast : F) : Fm F → Fm F → Prop
  | other {f args a} (h : f ≠ enc) (h : a ∈ args) : RandPart enc cast (.app f args) a
  | message {args a} (h : args[0]? = some a) : RandPart enc cast (.app enc args) a
  | key {args a} (h : args[2]? = some a) : RandPart enc cast (.app enc args) a
  | rand {args a g as} (hr : args[1]? = some (.app g as)) (hg : g ≠ cast) (h : a ∈ args) :
      RandPart enc cast (.app enc args) a

/-- SPECIFICATION. In the candidate and in the protocol, the encryptions under the key use the cast of a name as
randomness; this name serves for nothing else, and for no other message or key. -/
structure RandOK (L : Lang F) (steps : List (GStep F)) (cells : List (GCell F)) (M : Str F D) (enc cast : F)
    (starts : List (Clo F D)) (key : D) : Prop where
  name : ∀ x, x ∈ starts ∨ IsContent steps cells M x → ∀ m r k κ,
    Occurs L steps M ArgOf (fun _ => True) x (.app enc [m, r, k], κ) → Fm.eval M κ k = M.fn cast [key] →
      ∃ r', r = .app cast [r']
  once : ∀ x y, x ∈ starts ∨ IsContent steps cells M x → y ∈ starts ∨ IsContent steps cells M y →
    ∀ m r k κ m' r' k' κ', Occurs L steps M ArgOf (fun _ => True) x (.app enc [m, .app cast [r], k], κ) →
      Fm.eval M κ k = M.fn cast [key] →
      Occurs L steps M ArgOf (fun _ => True) y (.app enc [m', .app cast [r'], k'], κ') → Fm.eval M κ r = Fm.eval M κ' r' →
      Fm.eval M κ m = Fm.eval M κ' m' ∧ Fm.eval M κ k = Fm.eval M κ' k'
  only : ∀ x, x ∈ starts ∨ IsContent steps cells M x → ∀ m r k κ,
    Occurs L steps M ArgOf (fun _ => True) x (.app enc [m, .app cast [r], k], κ) → Fm.eval M κ k = M.fn cast [key] →
    Secret L steps cells M (RandPart enc cast) starts (Fm.eval M κ r)

/-- SPECIFICATION. Integrity of ciphertexts, as an ideal property of a structure. Whatever ciphertext `c` and key `k`
are built (over variables of the sorts `gr`): if the ciphertext is accepted, the key is secret and the randomness
well used, then the ciphertext is the same as an encryption under the key that occurs in it. -/
def Integrity (L : Lang F) (steps : List (GStep F)) (cells : List (GCell F)) (M : Str F D) (gr : Srt → Prop)
    (enc dec cast : F) (accept : D → D → Prop) (same : D → D → Prop) : Prop :=
  ∀ (c k : Fm F) (ρ : Valn D), NoQuant c → NoQuant k →
    (∀ v ∈ c.vars ++ k.vars, gr v.sort ∧ M.dom v.sort (ρ v.id)) →
    accept (Fm.eval M ρ c) (M.fn cast [Fm.eval M ρ k]) →
    Secret L steps cells M (CtxtPart enc dec cast) [(c, ρ)] (Fm.eval M ρ k) →
    RandOK L steps cells M enc cast [(c, ρ)] (Fm.eval M ρ k) →
    ∃ d r, M.dom .message d ∧ M.dom .name r ∧
      same (Fm.eval M ρ c) (M.fn enc [d, M.fn cast [r], M.fn cast [Fm.eval M ρ k]]) ∧
      ∃ args κ, Occurs L steps M ArgOf (fun _ => True) (c, ρ) (.app enc args, κ) ∧
        Fm.eval M κ (.app enc args) = M.fn enc [d, M.fn cast [r], M.fn cast [Fm.eval M ρ k]]

/-- The numbers of the variables of a candidate, of `u` and of `r`. -/
def Pbl.decOuter (K : Pbl F) (c : DecCand F) (i : Nat) : Prop :=
  i = K.decId c ∨ i = K.decId c + 1 ∨ i ∈ (c.terms.flatMap Fm.vars).map Var.id

/-- What is assumed of a candidate, as in `CandOK`. -/
structure DecOK [DecidableEq F] (X : Ctx F) (K : Pbl F) (M : Str F D) (gr : Srt → Prop) (c : DecCand F) : Prop where
  noQuant : ∀ t ∈ c.terms, NoQuant t
  noExec : NoExec K.E.L c.cipher
  sort : K.E.L.sortOf c.cipher = some .message
  vars : ∀ v ∈ c.terms.flatMap Fm.vars, gr v.sort ∧ ∀ w ∈ c.terms.flatMap Fm.vars, v.id = w.id → v = w
  keyClash : NoClash (K.search (X.key K) false) .noRecMacro (topLevel K.steps K.cells ++ [(c.cipher, [])]) (K.decOuter c)
  keyUnif : ∃ S, UnifOK (K.search (X.key K) false) M S
    (fun t => ∃ st, Elem (K.search (X.key K) false) .noRecMacro (topLevel K.steps K.cells ++ [(c.cipher, [])]) t st) c.key
  mainClash : NoClash (K.search X.main true) .all [(c.cipher, [])] (K.decOuter c)
  mainUnif : ∃ S, UnifOK (K.search X.main true) M S (fun t => ∃ st, Elem (K.search X.main true) .all [(c.cipher, [])] t st)
    (X.target K c)

/-- SPECIFICATION. A ciphertext is accepted: it does not decrypt to `fail`. -/
def Ctx.accepts (X : Ctx F) (K : Pbl F) (M : Str F D) (c k : D) : Prop :=
  K.E.val M .message (M.fn X.dec [c, k]) ≠ K.E.val M .message (M.fn X.fail [])

/-! ## Descending -/

section
variable [DecidableEq F]

theorem ctxtKey_shrinks (enc dec cast : F) : Shrinks (Aux.ctxtKey enc dec cast) := by
  intro t a h
  cases t with
  | var v => simp [Aux.ctxtKey] at h
  | app f args =>
    have ha : a ∈ args := by
      simp only [Aux.ctxtKey] at h
      split at h
      · exact List.mem_of_mem_take h
      · split at h
        · exact List.mem_of_mem_take h
        · exact h
    exact ⟨fun hn => hn.arg ha, fun _ hv => vars_arg ha hv⟩
  | quant q vs b =>
    simp only [Aux.ctxtKey, List.mem_singleton] at h
    subst h
    exact ⟨fun hn => (by cases hn), fun v hv => by simpa [Fm.vars] using hv⟩

theorem ctxtRand_shrinks (enc cast : F) : Shrinks (Aux.ctxtRand enc cast) := by
  intro t a h
  cases t with
  | var v => simp [Aux.ctxtRand] at h
  | app f args =>
    have ha : a ∈ args := by
      simp only [Aux.ctxtRand] at h
      split at h
      · rcases List.mem_append.1 h with h | h
        · exact List.mem_of_mem_take h
        · exact List.mem_of_mem_drop (List.mem_of_mem_take h)
      · exact h
    exact ⟨fun hn => hn.arg ha, fun _ hv => vars_arg ha hv⟩
  | quant q vs b =>
    simp only [Aux.ctxtRand, List.mem_singleton] at h
    subst h
    exact ⟨fun hn => (by cases hn), fun v hv => by simpa [Fm.vars] using hv⟩

omit [DecidableEq F] in
theorem CtxtPart.arg {enc dec cast : F} {t a : Fm F} (h : CtxtPart enc dec cast t a) : ArgOf t a := by
  cases h with
  | other _ _ h => exact .mk h
  | decArgs h => exact .mk (List.mem_of_mem_take h)
  | decKey _ _ h => exact .mk h
  | encArgs h => exact .mk (List.mem_of_mem_take h)
  | encKey _ _ h => exact .mk h

omit [DecidableEq F] in
theorem RandPart.arg {enc cast : F} {t a : Fm F} (h : RandPart enc cast t a) : ArgOf t a := by
  cases h with
  | other _ h => exact .mk h
  | message h => exact .mk (List.mem_of_getElem? h)
  | key h => exact .mk (List.mem_of_getElem? h)
  | rand _ _ h => exact .mk h

omit [DecidableEq F] in
theorem argOf_vars {t a : Fm F} (h : ArgOf t a) (v : Var) (hv : v ∈ a.vars) : v ∈ t.vars := by
  cases h with | mk h => exact vars_arg h hv

omit [DecidableEq F] in
theorem CtxtPart.proper (enc dec cast : F) : Proper (CtxtPart enc dec cast) := fun _ _ h => .single h.arg

omit [DecidableEq F] in
theorem RandPart.proper (enc cast : F) : Proper (RandPart enc cast) := fun _ _ h => .single h.arg

theorem CtxtPart.down (enc dec cast : F) (hed : enc ≠ dec) : Descends (Aux.ctxtKey enc dec cast) (CtxtPart enc dec cast) where
  var v a h := by cases h
  vars t a h v hv := argOf_vars h.arg v hv
  down t a h := by
    refine .inr fun θ => ?_
    cases h with
    | @other f args _ h1 h2 h =>
      simp only [Aux.ctxtKey, Subst.apply, Subst.applys_eq, h1, h2, false_and, if_false]
      exact List.mem_map_of_mem h
    | @decArgs args _ h =>
      simp only [Aux.ctxtKey, Subst.apply, Subst.applys_eq, Ne.symm hed, false_and, if_false, true_and]
      split
      · rw [← List.map_take]; exact List.mem_map_of_mem h
      · exact List.mem_map_of_mem (List.mem_of_mem_take h)
    | @decKey args _ g as hk hg h =>
      simp only [Aux.ctxtKey, Subst.apply, Subst.applys_eq, Ne.symm hed, false_and, if_false, true_and, List.getElem?_map, hk,
        Option.map_some, Option.any_some, isApp, hg, decide_false, Bool.false_eq_true]
      exact List.mem_map_of_mem h
    | @encArgs args _ h =>
      simp only [Aux.ctxtKey, Subst.apply, Subst.applys_eq, hed, false_and, if_false, true_and]
      split
      · rw [← List.map_take]; exact List.mem_map_of_mem h
      · exact List.mem_map_of_mem (List.mem_of_mem_take h)
    | @encKey args _ g as hk hg h =>
      simp only [Aux.ctxtKey, Subst.apply, Subst.applys_eq, hed, false_and, if_false, true_and, List.getElem?_map, hk,
        Option.map_some, Option.any_some, isApp, hg, decide_false, Bool.false_eq_true]
      exact List.mem_map_of_mem h

theorem RandPart.down (enc cast : F) : Descends (Aux.ctxtRand enc cast) (RandPart enc cast) where
  var v a h := by cases h
  vars t a h v hv := argOf_vars h.arg v hv
  down t a h := by
    refine .inr fun θ => ?_
    cases h with
    | @other f args _ h1 h =>
      simp only [Aux.ctxtRand, Subst.apply, Subst.applys_eq, h1, false_and, if_false]
      exact List.mem_map_of_mem h
    | @message args _ h =>
      simp only [Aux.ctxtRand, Subst.apply, Subst.applys_eq, true_and]
      split
      · refine List.mem_append_left _ ?_
        rw [← List.map_take]
        refine List.mem_map_of_mem ?_
        cases args with
        | nil => simp at h
        | cons b l => simp at h; simp [h]
      · exact List.mem_map_of_mem (List.mem_of_getElem? h)
    | @key args _ h =>
      simp only [Aux.ctxtRand, Subst.apply, Subst.applys_eq, true_and]
      split
      · refine List.mem_append_right _ ?_
        rw [← List.map_drop, ← List.map_take]
        refine List.mem_map_of_mem ?_
        match args, h with
        | b :: b' :: b'' :: l, h => simp at h; simp [h]
      · exact List.mem_map_of_mem (List.mem_of_getElem? h)
    | @rand args _ g as hr hg h =>
      simp only [Aux.ctxtRand, Subst.apply, Subst.applys_eq, true_and, List.getElem?_map, hr,
        Option.map_some, Option.any_some, isApp, hg, decide_false, Bool.false_eq_true, if_false]
      exact List.mem_map_of_mem h

/-! ## The instances -/

omit [DecidableEq F] in
theorem Ctx.accept_val {X : Ctx F} {K : Pbl F} {M : Str F D} (hl : Logical K.E M)
    (hdec : K.E.L.out X.dec = some .message)
    (hfail : K.E.L.out X.fail = some .message) {c k a : Fm F} (h : X.accept K c k = some a) (ρ : Valn D) :
    M.truth (Fm.eval M ρ a) ↔ X.accepts K M (Fm.eval M ρ c) (Fm.eval M ρ k) := by
  unfold Ctx.accept at h
  split at h
  swap
  · cases h
  rename_i x y hx hy
  cases h
  simp only [Lang.meq, Fm.eval, evals]
  rw [hl.not, hl.sem.eq, eval_val M (sortOf_app hdec _) hx, eval_val M (sortOf_app hfail _) hy]
  simp only [Fm.eval, evals, Ctx.accepts, ne_eq]

omit [DecidableEq F] in
theorem dec_freeVars {K : Pbl F} {c : DecCand F} (hq : ∀ t ∈ c.terms, NoQuant t) {vs : List Var} (h : K.decFree c = some vs) :
    vs.Nodup ∧ ∀ v, v ∈ vs ↔ v ∈ c.terms.flatMap Fm.vars := by
  simp only [Pbl.decFree, Option.map_eq_some_iff] at h
  obtain ⟨l, hl, rfl⟩ := h
  refine ⟨uniq_nodup _, fun v => ?_⟩
  rw [mem_uniq]
  constructor
  · intro hv
    obtain ⟨t, ht, b, hb, hvb⟩ := flatO_mem hl hv
    exact List.mem_flatMap.2 ⟨t, ht, free_sub_vars _ _ ((freeVars_mem hb v).1 hvb)⟩
  · intro hv
    obtain ⟨t, ht, hv⟩ := List.mem_flatMap.1 hv
    obtain ⟨b, hb, hs⟩ := flatO_mem' hl ht
    exact hs v ((freeVars_mem hb v).2 (NoQuant.vars_free (hq t ht) v hv))

omit [DecidableEq F] in
theorem dec_fresh {K : Pbl F} {c : DecCand F} {t : Fm F} (ht : t ∈ c.terms) {v : Var} (hv : v ∈ t.vars) :
    v.id ≠ K.decId c ∧ v.id ≠ K.decId c + 1 := by
  have := (C05_fresh ((c.terms.flatMap Fm.vars).map Var.id) K.maxVar).2 v.id
    (List.mem_map_of_mem (List.mem_flatMap.2 ⟨t, ht, hv⟩))
  unfold Pbl.decId
  omega

/-- The general form: the axiom of one candidate is true when its side condition says enough. -/
theorem ctxt_sound {K : Pbl F} {M : Str F D} (hS : Setting K M)
    {X : Ctx F} (hed : X.enc ≠ X.dec) (henc : K.E.L.out X.enc = some .message) (hdec : K.E.L.out X.dec = some .message)
    (hfail : K.E.L.out X.fail = some .message) {gr : Srt → Prop}
    (hint : Integrity K.E.L K.steps K.cells M gr X.enc X.dec K.cast (X.accepts K M)
      (fun a b => K.E.val M .message a = K.E.val M .message b))
    {es : List (EncCand F)} {side : Bool} {c : DecCand F} (hc : DecOK X K M gr c)
    (hr : ∀ sc, K.otherSc es (.app K.cast [c.key]) (K.decId c + 2) = some sc → ∀ ρ, InDom M (c.terms.flatMap Fm.vars) ρ →
      M.truth (Fm.eval M ρ sc) → RandOK K.E.L K.steps K.cells M X.enc K.cast [(c.cipher, ρ)] (Fm.eval M ρ c.key))
    {axs : List (Fm F)} (h : X.instanceAx K es side c = some axs) (ρ : Valn D) (φ : Fm F) (hφ : φ ∈ axs) :
    M.truth (Fm.eval M ρ φ) := by
  unfold Ctx.instanceAx at h
  cases side with
  | false => simp only [Bool.false_eq_true, if_false, Option.some.injEq] at h; subst h; cases hφ
  | true =>
  simp only [if_true] at h
  obtain ⟨ok, hok, h⟩ := Option.bind_eq_some_iff.1 h
  cases ok with
  | false => simp only [Bool.false_eq_true, if_false, Option.some.injEq] at h; subst h; cases hφ
  | true =>
  simp only [if_true] at h
  split at h
  swap
  · cases h
  rename_i vs ψ sc a ec et hvs hψ hsc ha hec het
  simp only [Option.some.injEq] at h
  subst h
  rw [List.mem_singleton] at hφ
  subst hφ
  obtain ⟨hnd, hmem⟩ := dec_freeVars hc.noQuant hvs
  have hids : (vs.map Var.id).Nodup := by
    refine List.Nodup.map_on ?_ hnd
    intro v hv w hw e
    exact (hc.vars v ((hmem v).1 hv)).2 w ((hmem w).1 hw) e
  have two : ∀ x y : D, M.truth (M.fn K.E.L.and [x, y]) ↔ M.truth x ∧ M.truth y := by
    intro x y
    rw [hS.logical.sem.and]
    simp
  have hcm : c.cipher ∈ c.terms := by simp [DecCand.terms]
  have hkm : c.key ∈ c.terms := by simp [DecCand.terms]
  rw [truth_mkForall]
  refine quantVal_all_of M _ vs ρ hids (fun ρ₁ _ hd₁ => ?_)
  simp only [Fm.eval, evals]
  refine (hS.logical.imp _ _).2 (fun hat => ?_)
  rw [two] at hat
  have hd₂ : InDom M (c.terms.flatMap Fm.vars) ρ₁ := fun v hv => hd₁ v ((hmem v).2 hv)
  -- the key is secret
  have hkey : Dep.search (K.search (X.key K) false) K.fuel c.key .noRecMacro (topLevel K.steps K.cells ++ rootsOf [c.cipher]) = some [] := by
    unfold Ctx.keyOk at hok
    split at hok
    · cases hok
    · assumption
    · cases hok
    · cases hok
  have hxk : ∀ v ∈ c.key.vars, K.decOuter c v.id := fun v hv =>
    .inr (.inr (List.mem_map_of_mem (List.mem_flatMap.2 ⟨c.key, hkm, hv⟩)))
  have hso : ∀ t ∈ [c.cipher], ∀ v ∈ t.vars, K.decOuter c v.id := fun t ht v hv =>
    .inr (.inr (List.mem_map_of_mem (List.mem_flatMap.2 ⟨c.cipher, hcm, by rw [List.mem_singleton.1 ht] at hv; exact hv⟩)))
  have hqs : ∀ t ∈ [c.cipher], NoQuant t := by simpa using hc.noQuant _ hcm
  obtain ⟨Sk, huk⟩ := hc.keyUnif
  have hsecret : Secret K.E.L K.steps K.cells M (CtxtPart X.enc X.dec K.cast) [(c.cipher, ρ₁)] (Fm.eval M ρ₁ c.key) :=
    secret_of_search hS (key := X.key K) (ctxtKey_shrinks _ _ _) (CtxtPart.down _ _ _ hed) rfl (starts := [c.cipher]) hqs hso hxk
      hc.keyClash huk hkey ρ₁
  -- integrity
  obtain ⟨d, r, hdd, hdr, hsame, args, κ, ho, hval⟩ := hint c.cipher c.key ρ₁ (hc.noQuant _ hcm) (hc.noQuant _ hkm)
    (fun v hv => by
      have hv' : v ∈ c.terms.flatMap Fm.vars := by
        simpa only [DecCand.terms, List.flatMap_cons, List.flatMap_nil, List.append_nil] using hv
      exact ⟨(hc.vars v hv').1, hd₂ v hv'⟩)
    (by have := (Ctx.accept_val hS.logical hdec hfail ha ρ₁).1 hat.1; simpa only [Fm.eval, evals] using this) hsecret
    (hr sc hsc ρ₁ hd₂ hat.2)
  -- the search of the encryption
  have hag : ∀ t ∈ c.terms, ∀ v ∈ t.vars, ρ₁ v.id = ((ρ₁.set (K.decId c) d).set (K.decId c + 1) r) v.id := by
    intro t ht v hv
    have := dec_fresh (K := K) ht hv
    rw [Valn.set_ne _ _ this.2, Valn.set_ne _ _ this.1]
  have htv : Fm.eval M ((ρ₁.set (K.decId c) d).set (K.decId c + 1) r) (X.target K c) =
      M.fn X.enc [d, M.fn K.cast [r], M.fn K.cast [Fm.eval M ρ₁ c.key]] := by
    simp only [Ctx.target, Fm.eval, evals, Pbl.decU, Pbl.decR, Valn.set_self]
    rw [Valn.set_ne _ _ (by omega), Valn.set_self, eval_agree_vars M c.key _ _ (hag c.key hkm)]
  obtain ⟨Sm, hum⟩ := hc.mainUnif
  have hx' : ∀ v ∈ (X.target K c).vars, K.decOuter c v.id := by
    intro v hv
    simp only [Ctx.target, Fm.vars, varss, List.append_nil, List.mem_append, List.mem_singleton] at hv
    rcases hv with rfl | rfl | hv
    · exact .inl rfl
    · exact .inr (.inl rfl)
    · exact hxk v hv
  have hmain : M.truth (Fm.eval M ((ρ₁.set (K.decId c) d).set (K.decId c + 1) r) ψ) :=
    found_of_occurs hS (main := X.main) (default_shrinks _) ArgOf.down ArgOf.proper rfl henc (starts := [c.cipher]) hqs
      (by simpa using hc.noExec) hso hx' hc.mainClash hum hψ
      (fun t ht => hag t (by rw [List.mem_singleton.1 ht]; exact hcm)) (List.mem_singleton_self _) ho (by rw [hval, htv])
  rw [truth_mkExists]
  refine ⟨d, hdd, r, hdr, ?_⟩
  change M.truth (Fm.eval M ((ρ₁.set (K.decId c) d).set (K.decId c + 1) r) (.app K.E.L.and [ψ, K.E.L.meq ec et]))
  simp only [Lang.meq, Fm.eval, evals]
  rw [two]
  refine ⟨hmain, (hS.logical.sem.eq _ _).2 ?_⟩
  rw [eval_val M hc.sort hec, eval_val M (t := X.target K c) (sortOf_app henc _) het, htv, ← eval_agree_vars M c.cipher _ _ (hag c.cipher hcm)]
  exact hsame

/-- **C64: the instances generated for integrity of ciphertexts are true.** In every structure in which ciphertexts
are integral, every axiom generated for the decryptions found in the problem holds. `_partial`: for a protocol and
candidates as in C61, and when the side condition of each instance (`otherSc`) implies that the randomness of
encryptions under its key is well used (`hr`). The code does not ensure the latter:
`C64_reuse_counterexample` and `C64_leak_counterexample`. -/
theorem C64_instance_partial {K : Pbl F} {M : Str F D} (hS : Setting K M)
    {X : Ctx F} (hed : X.enc ≠ X.dec) (henc : K.E.L.out X.enc = some .message) (hdec : K.E.L.out X.dec = some .message)
    (hfail : K.E.L.out X.fail = some .message) {gr : Srt → Prop}
    (hint : Integrity K.E.L K.steps K.cells M gr X.enc X.dec K.cast (X.accepts K M)
      (fun a b => K.E.val M .message a = K.E.val M .message b))
    {cs : List (DecCand F)} (hcs : X.candidates K = some cs) (hc : ∀ c ∈ cs, DecOK X K M gr c)
    {es : List (EncCand F)} {side : Bool} (hes : X.encs K = some (es, side))
    (hr : side = true → ∀ c ∈ cs, ∀ sc, K.otherSc es (.app K.cast [c.key]) (K.decId c + 2) = some sc →
      ∀ ρ, InDom M (c.terms.flatMap Fm.vars) ρ → M.truth (Fm.eval M ρ sc) →
      RandOK K.E.L K.steps K.cells M X.enc K.cast [(c.cipher, ρ)] (Fm.eval M ρ c.key))
    {axs : List (Fm F)} (h : X.preprocess K = some axs) (ρ : Valn D) (φ : Fm F) (hφ : φ ∈ axs) :
    M.truth (Fm.eval M ρ φ) := by
  unfold Ctx.preprocess at h
  rw [hcs, Option.bind_some, hes, Option.bind_some] at h
  obtain ⟨c, hcm, l, hl, hφ⟩ := flatO_mem h hφ
  cases side with
  | false =>
    simp only [Ctx.instanceAx, Bool.false_eq_true, if_false, Option.some.injEq] at hl
    subst hl
    cases hφ
  | true => exact ctxt_sound hS hed henc hdec hfail hint (hc c hcm) (hr rfl c hcm) hl ρ φ hφ

/-- A copy of the candidate is among `cs`: as `CopyIn`. -/
def DecCopyIn (tops : List (Fm F)) (c k : Fm F) (cs : List (DecCand F)) : Prop :=
  ∃ x ∈ cs, ∃ r : Nat → Nat, (∀ i j, r i = r j → i = j) ∧ (∀ top ∈ tops, ∀ v ∈ top.vars, ∀ i, r i ≠ v.id) ∧
    Renumbered r c x.cipher ∧ Renumbered r k x.key

/-- **C64: no decryption is forgotten.** Every `dec(c, k)`, with `k` the cast of a name, written in a top-level term of the
problem is a candidate (with its variables renumbered). -/
theorem C64_found {K : Pbl F} {X : Ctx F} {cs : List (DecCand F)} (hcs : X.candidates K = some cs)
    {top : Fm F} (htop : top ∈ K.tops) {c k : Fm F} (ht : Fm.app X.dec [c, .app K.cast [k]] ∈ top.subs) :
    DecCopyIn K.tops c k cs := by
  unfold Ctx.candidates at hcs
  obtain ⟨l, hl, rfl⟩ := Option.map_eq_some_iff.1 hcs
  refine ⟨⟨c.translateVars K.maxVar, k.translateVars K.maxVar⟩, ?_, (· + K.maxVar), fun i j h => Nat.add_right_cancel h, ?_,
    renumbered_translate _ _, renumbered_translate _ _⟩
  · rw [mem_uniq]
    refine List.mem_map.2 ⟨⟨c, k⟩, List.mem_flatMap.2 ⟨.app X.dec [c, .app K.cast [k]], ?_, ?_⟩, rfl⟩
    · obtain ⟨b, hb, hs⟩ := flatO_mem' hl htop
      refine hs _ ?_
      obtain ⟨n, hn⟩ := C04_all_terms top
      obtain ⟨b', h1, h2⟩ := hn (max K.fuel n) (Nat.le_max_right ..)
      have := runPile_more _ _ _ _ _ _ hb (Nat.le_max_left K.fuel n)
      rw [show runPile allTermsIter (max K.fuel n) () [.next top ()] = some b' from h1] at this
      cases this
      exact h2.mem_iff.2 ht
    · simp [Ctx.found, castArg]
  · intro top ht v hv i
    have := C05_fresh_formulas K.tops top ht v hv
    show i + K.maxVar ≠ v.id
    unfold Pbl.maxVar
    omega

/-- **C64: what the axioms say.** Let the axioms generated hold. If a candidate does not decrypt to `fail`, its key was
not found in the problem and its side condition holds, then it evaluates as an encryption under its key which is
found in it by the search. `_partial`: for candidates as in `C64_instance_partial`. -/
theorem C64_says_partial {K : Pbl F} {M : Str F D} (hS : Setting K M)
    {X : Ctx F} (henc : K.E.L.out X.enc = some .message) (hdec : K.E.L.out X.dec = some .message)
    (hfail : K.E.L.out X.fail = some .message) {gr : Srt → Prop}
    {cs : List (DecCand F)} (hcs : X.candidates K = some cs) {c : DecCand F} (hcm : c ∈ cs) (hc : DecOK X K M gr c)
    {es : List (EncCand F)} (hes : X.encs K = some (es, true))
    {axs : List (Fm F)} (h : X.preprocess K = some axs) {ρ : Valn D} (hax : ∀ φ ∈ axs, M.truth (Fm.eval M ρ φ))
    (hok : Dep.search (K.search (X.key K) false) K.fuel c.key .noRecMacro (topLevel K.steps K.cells ++ [(c.cipher, [])]) = some [])
    {τ : Valn D} (hoff : ∀ i, i ∉ (c.terms.flatMap Fm.vars).map Var.id → τ i = ρ i)
    (hd : InDom M (c.terms.flatMap Fm.vars) τ)
    (hsc : ∀ sc, K.otherSc es (.app K.cast [c.key]) (K.decId c + 2) = some sc → M.truth (Fm.eval M τ sc))
    (hacc : X.accepts K M (Fm.eval M τ c.cipher) (M.fn K.cast [Fm.eval M τ c.key])) :
    ∃ d r, M.dom .message d ∧ M.dom .name r ∧
      K.E.val M .message (Fm.eval M τ c.cipher) =
        K.E.val M .message (M.fn X.enc [d, M.fn K.cast [r], M.fn K.cast [Fm.eval M τ c.key]]) ∧
      ∃ res, Dep.search (K.search X.main true) K.fuel (X.target K c) .all [(c.cipher, [])] = some res ∧
        ∃ vs χ, some (vs, χ) ∈ res ∧ quantVal M .ex vs (fun κ => M.truth (Fm.eval M κ χ))
          ((τ.set (K.decId c) d).set (K.decId c + 1) r) := by
  unfold Ctx.preprocess at h
  rw [hcs, Option.bind_some, hes, Option.bind_some] at h
  obtain ⟨l, hl, hlm⟩ := flatO_mem' h hcm
  have hok' : X.keyOk K c = some true := by unfold Ctx.keyOk; rw [hok]
  unfold Ctx.instanceAx at hl
  simp only [if_true, hok', Option.bind_some] at hl
  split at hl
  swap
  · cases hl
  rename_i vs ψ sc a ec et hvs hψ hsc' ha hec het
  simp only [Option.some.injEq] at hl
  subst hl
  have hax := hax _ (hlm _ (List.mem_singleton_self _))
  obtain ⟨hnd, hmem⟩ := dec_freeVars hc.noQuant hvs
  have two : ∀ x y : D, M.truth (M.fn K.E.L.and [x, y]) ↔ M.truth x ∧ M.truth y := by
    intro x y
    rw [hS.logical.sem.and]
    simp
  rw [truth_mkForall] at hax
  have hax := quantVal_all_elim M _ vs ρ τ (fun i hi => hoff i (fun ho => by
      obtain ⟨v, hv, rfl⟩ := List.mem_map.1 ho
      exact hi (List.mem_map_of_mem ((hmem v).2 hv)))) (fun v hv => hd v ((hmem v).1 hv)) hax
  simp only [Fm.eval, evals] at hax
  have hax := (hS.logical.imp _ _).1 hax ((two _ _).2 ⟨(Ctx.accept_val hS.logical hdec hfail ha τ).2
    (by simpa only [Fm.eval, evals] using hacc), hsc sc hsc'⟩)
  rw [truth_mkExists] at hax
  obtain ⟨d, hdd, r, hdr, hax⟩ := hax
  change M.truth (Fm.eval M ((τ.set (K.decId c) d).set (K.decId c + 1) r) (.app K.E.L.and [ψ, K.E.L.meq ec et])) at hax
  simp only [Lang.meq, Fm.eval, evals] at hax
  rw [two] at hax
  have hcm : c.cipher ∈ c.terms := by simp [DecCand.terms]
  have hkm : c.key ∈ c.terms := by simp [DecCand.terms]
  have hag : ∀ t ∈ c.terms, ∀ v ∈ t.vars, τ v.id = ((τ.set (K.decId c) d).set (K.decId c + 1) r) v.id := by
    intro t ht v hv
    have := dec_fresh (K := K) ht hv
    rw [Valn.set_ne _ _ this.2, Valn.set_ne _ _ this.1]
  have htv : Fm.eval M ((τ.set (K.decId c) d).set (K.decId c + 1) r) (X.target K c) =
      M.fn X.enc [d, M.fn K.cast [r], M.fn K.cast [Fm.eval M τ c.key]] := by
    simp only [Ctx.target, Fm.eval, evals, Pbl.decU, Pbl.decR, Valn.set_self]
    rw [Valn.set_ne _ _ (by omega), Valn.set_self, eval_agree_vars M c.key _ _ (hag c.key hkm)]
  have h3 := (hS.logical.sem.eq _ _).1 hax.2
  rw [eval_val M hc.sort hec, eval_val M (t := X.target K c) (sortOf_app henc _) het, htv,
    ← eval_agree_vars M c.cipher _ _ (hag c.cipher hcm)] at h3
  refine ⟨d, r, hdd, hdr, h3, ?_⟩
  have hxk : ∀ t ∈ c.terms, ∀ v ∈ t.vars, K.decOuter c v.id := fun t ht v hv =>
    .inr (.inr (List.mem_map_of_mem (List.mem_flatMap.2 ⟨t, ht, hv⟩)))
  have hx' : ∀ v ∈ (X.target K c).vars, K.decOuter c v.id := by
    intro v hv
    simp only [Ctx.target, Fm.vars, varss, List.append_nil, List.mem_append, List.mem_singleton] at hv
    rcases hv with rfl | rfl | hv
    · exact .inl rfl
    · exact .inr (.inl rfl)
    · exact hxk c.key hkm v hv
  have hψ' : (Dep.search (K.search X.main true) K.fuel (X.target K c) .all [(c.cipher, [])]).bind (fun res =>
      (mapO id res).map (intoExist K.E.L)) = some ψ := hψ
  obtain ⟨res, hres, hψ'⟩ := Option.bind_eq_some_iff.1 hψ'
  obtain ⟨rs, hrs, rfl⟩ := Option.map_eq_some_iff.1 hψ'
  obtain ⟨hnone, rfl⟩ := mapO_id hrs
  exact ⟨res, hres, (C31_search_partial (C := K.search X.main true) (cells := K.cells) hS.logical.sem hS.prot (default_shrinks _)
    (AncSpec.cells_sub (hS.graph.spec hS.good))
    (fun t bv h => rootsOf_ok (starts := [c.cipher]) (by simpa using hc.noQuant _ hcm) (by simpa using hxk _ hcm) t bv h)
    hc.mainClash hx' hS.dom hres _).1 hax.1⟩

omit [DecidableEq F] in
/-- **C64: the axiom of correctness.** It says exactly that decrypting an encryption, under the same key, gives the
value of the message. -/
theorem C64_correct {K : Pbl F} {M : Str F D} (hsem : Sem K.E.L M) {X : Ctx F} (hdec : K.E.L.out X.dec = some .message)
    {φ : Fm F} (h : X.baseAx K = some φ) (ρ : Valn D) :
    M.truth (Fm.eval M ρ φ) ↔ ∀ m c k, M.dom .message m → M.dom .message c → M.dom .message k →
      K.E.val M .message m = K.E.val M .message (M.fn X.dec [M.fn X.enc [m, c, k], k]) := by
  unfold Ctx.baseAx at h
  simp only [] at h
  split at h
  swap
  · cases h
  rename_i a b ha hb
  simp only [Option.some.injEq] at h
  subst h
  have e1 := fun τ => eval_val M (sortOf_var _ _) ha τ
  have e2 := fun τ => eval_val M (sortOf_app hdec _) hb τ
  have set_ne : ∀ (τ : Valn D) (i j : Nat) (d : D), j ≠ i → τ.set i d j = τ j := fun τ i j d h => Valn.set_ne _ _ h
  rw [truth_mkForall]
  simp only [quantVal, Lang.meq, Fm.eval, evals, hsem.eq, e1, e2, Valn.set_self, set_ne, ne_eq, not_false_eq_true,
    Nat.reduceEqDiff]
  constructor
  · intro h m c k hm hc hk; exact h m hm c hc k hk
  · intro h m hm c hc k hk; exact h m c k hm hc hk

/-! ## The side condition on pairs of encryptions -/

/-- The two terms unify, and the unifier can be written as equalities. -/
def Pbl.Unifies (K : Pbl F) (a b : Fm F) : Prop :=
  ∃ u eqs g, mgu K.mfuel a b = some (some u) ∧ u.asEqualities = some eqs ∧ eqFormulas K.E.L eqs = some g

theorem unify_truth {K : Pbl F} {M : Str F D} (hsem : Sem K.E.L M) {a b : Fm F} (h : K.Unifies a b) {g : List (Fm F)}
    (hg : K.unify a b = some (some g)) (τ : Valn D) :
    ((∀ φ ∈ g, M.truth (Fm.eval M τ φ)) → Fm.eval M τ a = Fm.eval M τ b) ∧
      ∀ S, M.InjectiveOn S → Over S a → Over S b → Fm.eval M τ a = Fm.eval M τ b → ∀ φ ∈ g, M.truth (Fm.eval M τ φ) := by
  obtain ⟨u, eqs, g', h1, h2, h3⟩ := h
  simp only [Pbl.unify, h1, Option.map_some, h2, Option.bind_some, h3, Option.getD_some, Option.some.injEq] at hg
  subst hg
  have key : (∀ φ ∈ g', M.truth (Fm.eval M τ φ)) ↔ SatEqs M τ eqs := by
    constructor
    · intro h p hp
      obtain ⟨φ, hφ, e⟩ := (mapM_some h3).1 p hp
      obtain ⟨s, _, rfl⟩ := Option.map_eq_some_iff.1 e
      have := h _ hφ
      simp only [Lang.meq, Fm.eval, evals, hsem.eq] at this
      exact this
    · intro h φ hφ
      obtain ⟨p, hp, e⟩ := (mapM_some h3).2 φ hφ
      obtain ⟨s, _, rfl⟩ := Option.map_eq_some_iff.1 e
      simp only [Lang.meq, Fm.eval, evals, hsem.eq]
      exact h p hp
  rw [key]
  exact ⟨fun h => C07_equalities_sound M τ _ a b u eqs h1 h2 h,
    fun S hS ha hb he => C07_equalities_most_general_on M S hS τ _ a b u eqs ha hb h1 h2 he⟩

omit [DecidableEq F] in
theorem mem_pairs {α : Type} {l : List α} {i j : Nat} {a b : α} (hij : i < j) (ha : l[i]? = some a) (hb : l[j]? = some b) :
    (a, b) ∈ pairs l := by
  induction l generalizing i j with
  | nil => cases ha
  | cons c l ih =>
    cases j with
    | zero => omega
    | succ j =>
      cases i with
      | zero =>
        cases ha
        exact List.mem_append_left _ (List.mem_map.2 ⟨b, List.mem_of_getElem? hb, rfl⟩)
      | succ i => exact List.mem_append_right _ (ih (by omega) ha hb)

/-- **C64: the encryptions sent are collected**, and when axioms are generated their randomness is the cast of a name:
if the side condition holds, each top-level term that is an encryption is `enc(m, cast(r), k)` and is in the list; it
does not hold when one has another randomness. `_partial`: an encryption written inside another term is not seen
(`C64_leak_counterexample`, `C64_reuse_counterexample`). -/
theorem C64_encryptions_partial {K : Pbl F} {X : Ctx F} {es : List (EncCand F)} {side : Bool} (h : X.encs K = some (es, side)) :
    (side = true ↔ ∀ args, .app X.enc args ∈ K.tops → ∃ rs, args[1]? = some (.app K.cast rs)) ∧
    ∀ m r k args as, .app X.enc args ∈ K.tops → args[0]? = some m → args[1]? = some (.app K.cast (r :: as)) → args[2]? = some k →
      ⟨r, m, k⟩ ∈ es := by
  unfold Ctx.encs at h
  obtain ⟨l, hl, h⟩ := Option.map_eq_some_iff.1 h
  simp only [Prod.mk.injEq] at h
  obtain ⟨rfl, rfl⟩ := h
  refine ⟨⟨fun hs args ha => ?_, fun hs => ?_⟩, fun m r k args as ha hm hr hk => ?_⟩
  · obtain ⟨o, ho, e⟩ := mapO_mem' hl _ ha
    have := List.all_eq_true.1 hs o ho
    simp only [Ctx.encOf, argsOf, if_true] at e
    obtain ⟨x, hx, e⟩ := Option.bind_eq_some_iff.1 e
    cases x with
    | var v => simp only [argsOf, Option.some.injEq] at e; subst e; cases this
    | quant q vs b => simp only [argsOf, Option.some.injEq] at e; subst e; cases this
    | app g rs =>
      simp only [argsOf] at e
      by_cases hg : g = K.cast
      · subst hg; exact ⟨rs, hx⟩
      · simp only [hg, if_false, Option.some.injEq] at e; subst e; cases this
  · refine List.all_eq_true.2 fun o ho => ?_
    obtain ⟨t, ht, e⟩ := mapO_mem hl o ho
    unfold Ctx.encOf at e
    split at e
    · cases e; rfl
    · rename_i args hargs
      cases t with
      | var v => cases hargs
      | quant q vs b => cases hargs
      | app g as =>
        simp only [argsOf] at hargs
        split at hargs
        swap
        · cases hargs
        rename_i hg
        subst hg
        cases hargs
        obtain ⟨rs, hrs⟩ := hs _ ht
        simp only [hrs, Option.bind_some, argsOf, if_true] at e
        obtain ⟨_, _, e⟩ := Option.bind_eq_some_iff.1 e
        obtain ⟨_, _, e⟩ := Option.bind_eq_some_iff.1 e
        obtain ⟨_, _, rfl⟩ := Option.map_eq_some_iff.1 e
        rfl
  · obtain ⟨o, ho, e⟩ := mapO_mem' hl _ ha
    simp only [Ctx.encOf, argsOf, if_true, hr, hm, hk, Option.bind_some, List.getElem?_cons_zero, Option.map_some,
      Option.some.injEq] at e
    subst e
    rw [mem_uniq]
    exact List.mem_flatMap.2 ⟨_, ho, List.mem_singleton_self _⟩

/-- **C64: what the side condition says of a pair of encryptions.** Let it hold; take two encryptions written as
top-level terms, the variables of the second renumbered, and values for the variables quantified. If the key of the
candidate is that of the first encryption and the two have the same randomness, then they have the same key and
message. `_partial`: when the keys, the randomness and the messages all unify; otherwise the code says nothing of
the pair, even if their randomness is the same (`C64_reuse_counterexample`). -/
theorem C64_pairs_partial {K : Pbl F} {M : Str F D} (hl : Logical K.E M) {S : F → Prop} (hi : M.InjectiveOn S)
    {es : List (EncCand F)} {kf : Fm F} {n : Nat} {sc : Fm F} (h : K.otherSc es kf n = some sc) {a b : EncCand F}
    {i j : Nat} (hij : i < j) (ha : es[i]? = some a) (hb : es[j]? = some b) (h1 : K.Unifies kf a.key) (h2 : K.Unifies a.rand (b.rand.translateVars n))
    (h3 : K.Unifies a.key (b.key.translateVars n)) (h4 : K.Unifies a.message (b.message.translateVars n))
    (ho : Over S kf ∧ Over S a.key ∧ Over S a.rand ∧ Over S (b.rand.translateVars n)) {ρ τ : Valn D}
    (hsc : M.truth (Fm.eval M ρ sc))
    (hoff : ∀ i, (∀ v ∈ [a.rand, a.message, a.key, b.rand.translateVars n, b.message.translateVars n].flatMap Fm.free, v.id ≠ i) → τ i = ρ i)
    (hd : InDom M ([a.rand, a.message, a.key, b.rand.translateVars n, b.message.translateVars n].flatMap Fm.free) τ)
    (hk : Fm.eval M τ kf = Fm.eval M τ a.key) (hr : Fm.eval M τ a.rand = Fm.eval M τ (b.rand.translateVars n)) :
    Fm.eval M τ a.key = Fm.eval M τ (b.key.translateVars n) ∧ Fm.eval M τ a.message = Fm.eval M τ (b.message.translateVars n) := by
  unfold Pbl.otherSc at h
  obtain ⟨l, hl', rfl⟩ := Option.map_eq_some_iff.1 h
  have some_of : ∀ {x y : Fm F}, K.Unifies x y → ∃ g, K.unify x y = some (some g) := by
    rintro x y ⟨u, eqs, g', e1, e2, e3⟩
    exact ⟨g', by simp [Pbl.unify, e1, e2, e3]⟩
  obtain ⟨g1, e1⟩ := some_of h1
  obtain ⟨g2, e2⟩ := some_of h2
  obtain ⟨g3, e3⟩ := some_of h3
  obtain ⟨g4, e4⟩ := some_of h4
  obtain ⟨o, hom, ho'⟩ := mapO_mem' hl' _ (mem_pairs hij ha hb)
  simp only [Pbl.pairSc, e1, e2, e3, e4, Option.bind_some, Option.map_eq_some_iff] at ho'
  obtain ⟨vs, hvs, rfl⟩ := ho'
  have hone : M.truth (Fm.eval M ρ (.mkForall (uniq vs) (.app K.E.L.imp [K.E.L.ands (g2 ++ g1), K.E.L.ands (g3 ++ g4)]))) := by
    simp only [Lang.ands, Fm.eval, evals_map] at hsc
    exact (hl.sem.and _).1 hsc _ (List.mem_map_of_mem (List.mem_filterMap.2 ⟨_, hom, rfl⟩))
  have hvs' : ∀ v, v ∈ uniq vs ↔ v ∈ [a.rand, a.message, a.key, b.rand.translateVars n, b.message.translateVars n].flatMap Fm.free := by
    intro v
    rw [mem_uniq]
    constructor
    · intro hv
      obtain ⟨t, ht, x, hx, hvx⟩ := flatO_mem hvs hv
      refine List.mem_flatMap.2 ⟨t, ?_, (freeVars_mem hx v).1 hvx⟩
      simp only [List.mem_cons, List.not_mem_nil, or_false] at ht ⊢
      tauto
    · intro hv
      obtain ⟨t, ht, hv⟩ := List.mem_flatMap.1 hv
      obtain ⟨x, hx, hs⟩ := flatO_mem' hvs (a := t) (by
        simp only [List.mem_cons, List.not_mem_nil, or_false] at ht ⊢
        tauto)
      exact hs v ((freeVars_mem hx v).2 hv)
  rw [truth_mkForall] at hone
  have hone := quantVal_all_elim M _ _ ρ τ (fun i hi => hoff i (fun v hv e => hi (by
      rw [← e]; exact List.mem_map_of_mem ((hvs' v).2 hv)))) (fun v hv => hd v ((hvs' v).1 hv)) hone
  simp only [Fm.eval, evals] at hone
  have hone := (hl.imp _ _).1 hone (by
    simp only [Lang.ands, Fm.eval, evals_map]
    refine (hl.sem.and _).2 ?_
    intro e he
    obtain ⟨φ, hφ, rfl⟩ := List.mem_map.1 he
    rcases List.mem_append.1 hφ with hφ | hφ
    · exact (unify_truth hl.sem h2 e2 τ).2 S hi ho.2.2.1 ho.2.2.2 hr φ hφ
    · exact (unify_truth hl.sem h1 e1 τ).2 S hi ho.1 ho.2.1 hk φ hφ)
  simp only [Lang.ands, Fm.eval, evals_map] at hone
  have hone := (hl.sem.and _).1 hone
  exact ⟨(unify_truth hl.sem h3 e3 τ).1 (fun φ hφ => hone _ (List.mem_map_of_mem (List.mem_append_left _ hφ))),
    (unify_truth hl.sem h4 e4 τ).1 (fun φ hφ => hone _ (List.mem_map_of_mem (List.mem_append_right _ hφ)))⟩

/-! ## The subterm predicates -/

/-- SPECIFICATION. As `CtxtPart`, on values. -/
def CtxtParts (M : Str F D) (enc dec cast : F) (ta : F → Prop) (f : F) (l : List D) (a : D) : Prop :=
  ta f ∧ ((f ≠ enc ∧ f ≠ dec ∧ a ∈ l) ∨
    (f = dec ∧ (a ∈ l.take 1 ∨ l[1]? = some a ∧ ∀ as, a ≠ M.fn cast as)) ∨
    (f = enc ∧ (a ∈ l.take 2 ∨ l[2]? = some a ∧ ∀ as, a ≠ M.fn cast as)))

/-- SPECIFICATION. As `RandPart`, on values. -/
def RandParts (M : Str F D) (enc cast : F) (ta : F → Prop) (f : F) (l : List D) (a : D) : Prop :=
  ta f ∧ ((f ≠ enc ∧ a ∈ l) ∨
    (f = enc ∧ (l[0]? = some a ∨ l[2]? = some a ∨ l[1]? = some a ∧ ∀ as, a ≠ M.fn cast as)))

variable {K : Pbl F} {M : Str F D} {S ta : F → Prop} {gr : Srt → Prop} {I : Info F}

omit [DecidableEq F] in
theorem CtxtParts.parts (enc dec cast : F) (ta : F → Prop) :
    Parts M S (CtxtParts M enc dec cast ta) (CtxtPart enc dec cast) := by
  rintro f args τ a ho ⟨_, h⟩
  rcases h with ⟨h1, h2, h⟩ | ⟨rfl, h | ⟨h, ha⟩⟩ | ⟨rfl, h | ⟨h, ha⟩⟩
  · obtain ⟨b, hb, rfl⟩ := List.mem_map.1 h
    exact .inl ⟨b, .other h1 h2 hb, rfl⟩
  · obtain ⟨b, hb, rfl⟩ := take_eval h
    exact .inl ⟨b, .decArgs hb, rfl⟩
  · rcases key_eval ho h ha with ⟨g, as, h1, h2, h3, h4⟩ | ⟨v, hv, h⟩
    · exact .inl ⟨_, .decKey h1 h2 h3, h4⟩
    · exact .inr ⟨v, hv, .inl h⟩
  · obtain ⟨b, hb, rfl⟩ := take_eval h
    exact .inl ⟨b, .encArgs hb, rfl⟩
  · rcases key_eval ho h ha with ⟨g, as, h1, h2, h3, h4⟩ | ⟨v, hv, h⟩
    · exact .inl ⟨_, .encKey h1 h2 h3, h4⟩
    · exact .inr ⟨v, hv, .inl h⟩

omit [DecidableEq F] in
theorem RandParts.parts (enc cast : F) (ta : F → Prop) :
    Parts M S (RandParts M enc cast ta) (RandPart enc cast) := by
  rintro f args τ a ho ⟨_, h⟩
  rcases h with ⟨h1, h⟩ | ⟨rfl, h | h | ⟨h, ha⟩⟩
  · obtain ⟨b, hb, rfl⟩ := List.mem_map.1 h
    exact .inl ⟨b, .other h1 hb, rfl⟩
  · rw [List.getElem?_map] at h
    obtain ⟨t, ht, rfl⟩ := Option.map_eq_some_iff.1 h
    exact .inl ⟨t, .message ht, rfl⟩
  · rw [List.getElem?_map] at h
    obtain ⟨t, ht, rfl⟩ := Option.map_eq_some_iff.1 h
    exact .inl ⟨t, .key ht, rfl⟩
  · rcases key_eval ho h ha with ⟨g, as, h1, h2, h3, h4⟩ | ⟨v, hv, h⟩
    · exact .inl ⟨_, .rand h1 h2 h3, h4⟩
    · exact .inr ⟨v, hv, .inl h⟩

/-- The predicate for the keys of encryptions. -/
theorem SubOK.ctxtKey {X : Ctx F} (hed : X.enc ≠ X.dec)
    (he : K.E.L.kind X.enc = .plain) (hd : K.E.L.kind X.dec = .plain)
    (hR : Reads K M (CtxtParts M X.enc X.dec K.cast ta) (fun _ => True) (X.key K)) :
    SubOK K M S ta (CtxtParts M X.enc X.dec K.cast ta) (fun _ => True) (CtxtPart X.enc X.dec K.cast) (X.key K) .all where
  reads := hR
  vp_ta := fun _ _ _ h => h.1
  parts := CtxtParts.parts _ _ _ _
  qargs := fun f b fr cs hk args a ha => .other (by rintro rfl; rw [he] at hk; cases hk) (by rintro rfl; rw [hd] at hk; cases hk) ha
  proper := CtxtPart.proper _ _ _
  shrinks := ctxtKey_shrinks _ _ _
  descends := CtxtPart.down _ _ _ hed
  flags := .inl rfl

/-- The predicate for the randomness of encryptions. -/
theorem SubOK.ctxtRand {X : Ctx F} (he : K.E.L.kind X.enc = .plain)
    (hR : Reads K M (RandParts M X.enc K.cast ta) (fun _ => True) (X.rand K)) :
    SubOK K M S ta (RandParts M X.enc K.cast ta) (fun _ => True) (RandPart X.enc K.cast) (X.rand K) .all where
  reads := hR
  vp_ta := fun _ _ _ h => h.1
  parts := RandParts.parts _ _ _
  qargs := fun f b fr cs hk args a ha => .other (by rintro rfl; rw [he] at hk; cases hk) ha
  proper := RandPart.proper _ _
  shrinks := ctxtRand_shrinks _ _
  descends := RandPart.down _ _
  flags := .inl rfl

/-- **C63 for ciphertexts.** The definitions of the three subterm predicates of integrity of ciphertexts are true,
except the unfolding axioms of the predicates for keys and randomness for `enc` and `dec`, and those of the symbols
that are not as `SpecialOK` says. `_partial`: see `C63_define_partial`. -/
theorem C63_ctxt_partial (hS : Setting K M) {X : Ctx F} (hed : X.enc ≠ X.dec)
    (he : K.E.L.kind X.enc = .plain) (hd : K.E.L.kind X.dec = .plain)
    (Wk : World K M S ta .name gr) (Wm : World K M S ta .message gr)
    (hRm : Reads K M (Every ta) (fun _ => True) X.main)
    (hRk : Reads K M (CtxtParts M X.enc X.dec K.cast ta) (fun _ => True) (X.key K))
    (hRr : Reads K M (RandParts M X.enc K.cast ta) (fun _ => True) (X.rand K))
    (hI : InfoOK K I ta gr .name (Every (D := D) ta) []) (hI' : ∀ s ∈ K.E.sorts, I.taSort s = false → gr s)
    {vampire : Bool} {axs : List (Fm F)} (h : X.defineSubterms K I vampire = some axs) (φ : Fm F) (hφ : φ ∈ axs) :
    (∀ ρ, M.truth (Fm.eval M ρ φ)) ∨ ∃ f ∈ K.E.functions,
      (I.dflt f = false ∧ ¬ SpecialOK K I gr X.main .all true f ∧ K.specialAx I X.main .all true f = some φ) ∨
      ((if I.dflt f then f ∈ [X.enc, X.dec] else ¬ SpecialOK K I gr (X.key K) .all false f) ∧
        K.specialAx I (X.key K) .all false f = some φ) ∨
      ((if I.dflt f then f ∈ [X.enc] else ¬ SpecialOK K I gr (X.rand K) .all false f) ∧
        K.specialAx I (X.rand K) .all false f = some φ) := by
  have hIk : InfoOK K I ta gr (X.key K).A.sort (CtxtParts M X.enc X.dec K.cast ta) [X.enc, X.dec] :=
    ⟨hI.dflt, hI.ta, hI.sorts, by
      rintro f _ hni l a ⟨_, h⟩
      simp only [List.mem_cons, List.not_mem_nil, or_false, not_or] at hni
      rcases h with ⟨_, _, h⟩ | ⟨e, _⟩ | ⟨e, _⟩
      · exact h
      · exact absurd e hni.2
      · exact absurd e hni.1⟩
  have hIr : InfoOK K I ta gr (X.rand K).A.sort (RandParts M X.enc K.cast ta) [X.enc] :=
    ⟨hI.dflt, hI.ta, hI.sorts, by
      rintro f _ hni l a ⟨_, h⟩
      rcases h with ⟨_, h⟩ | ⟨e, _⟩
      · exact h
      · exact absurd (List.mem_singleton.2 e) hni⟩
  have hIm : InfoOK K I ta gr X.main.A.sort (Every (D := D) ta) [] :=
    ⟨hI.dflt, hI.ta, fun s hs ht _ => hI' s hs ht, fun f _ _ l a h => h.2⟩
  unfold Ctx.defineSubterms at h
  split at h
  swap
  · cases h; cases hφ
  split at h
  swap
  · cases h
  rename_i a b c ha hb hc
  cases h
  rcases List.mem_append.1 hφ with hφ | hφ
  · rcases List.mem_append.1 hφ with hφ | hφ
    · rcases C63_define_partial hS Wm (SubOK.default (ta := ta) hRm) hIm ha φ hφ with h | ⟨f, hf, h1, h⟩
      · exact .inl h
      · cases hd : I.dflt f with
        | true => rw [hd] at h1; simp at h1
        | false => rw [hd] at h1; exact .inr ⟨f, hf, .inl ⟨hd, by simp only [Bool.false_eq_true, if_false] at h1; exact h1, h⟩⟩
    · rcases C63_define_partial hS Wk (SubOK.ctxtKey hed he hd hRk) hIk hb φ hφ with h | ⟨f, hf, h⟩
      · exact .inl h
      · exact .inr ⟨f, hf, .inr (.inl h)⟩
  · rcases C63_define_partial hS Wk (SubOK.ctxtRand he hRr) hIr hc φ hφ with h | ⟨f, hf, h⟩
    · exact .inl h
    · exact .inr ⟨f, hf, .inr (.inr h)⟩

/-! ## The axiom over all messages -/

/-- **C64: what the axiom over all messages says.** For every message `c` and name `k`: if decrypting `c` **with the
name `k` itself**, not with its cast, does not fail, then `c` evaluates as an encryption under `k` with a name `r` as
randomness, and: it occurs in `c`, or the key or `r` does, or `c` contains an encryption under `k` whose randomness is
not a name, or is `r` - and then the message differs, or some message is not the key. -/
theorem C64_general_says (hl : Logical K.E M)
    (hor : ∀ a b, M.truth (M.fn K.E.L.or [a, b]) ↔ M.truth a ∨ M.truth b) {X : Ctx F} {ms ks rs : F}
    (henc : K.E.L.out X.enc = some .message) (hdec : K.E.L.out X.dec = some .message) (hfail : K.E.L.out X.fail = some .message)
    (hms : X.mainSound = true) (hks : X.keySound = true) (hrs : X.randSound = true)
    (hm : X.mainSym (some .message) = some ms) (hk : X.keySym (some .message) = some ks)
    (hr : X.randSym (some .message) = some rs) {φ : Fm F} (h : X.generalAx K = some φ) (ρ : Valn D) :
    M.truth (Fm.eval M ρ φ) ↔ ∀ c k, M.dom .message c → M.dom .name k → X.accepts K M c k →
      ∃ m r, M.dom .message m ∧ M.dom .name r ∧
        K.E.val M .message c = K.E.val M .message (M.fn X.enc [m, M.fn K.cast [r], M.fn K.cast [k]]) ∧
        (M.truth (M.fn ms [M.fn X.enc [m, M.fn K.cast [r], M.fn K.cast [k]], c]) ∨ M.truth (M.fn ks [k, c]) ∨
          M.truth (M.fn rs [r, c]) ∨ ∃ m2 k2 r2, M.dom .message m2 ∧ M.dom .message k2 ∧ M.dom .message r2 ∧
            M.truth (M.fn ms [M.fn X.enc [m2, r2, M.fn K.cast [k]], c]) ∧
            ((∀ n, M.dom .name n → r2 ≠ M.fn K.cast [n]) ∨
              (r2 = M.fn K.cast [r] ∧ (m2 ≠ m ∨ k2 ≠ M.fn K.cast [k])))) := by
  unfold Ctx.generalAx Pbl.sub at h
  simp only [Ctx.main, Ctx.key, Ctx.rand, hms, hks, hrs] at h
  split at h
  swap
  · cases h
  rename_i ed ef ec ec2 f1 f2 f3 f4 hed hef hec hec2 h1 h2 h3 h4
  simp only [Option.some.injEq] at h
  subst h
  have e1 := subFormula_var (M := M) hm h1
  have e2 := subFormula_var (M := M) hk h2
  have e3 := subFormula_var (M := M) hr h3
  have e4 := subFormula_var (M := M) hm h4
  have d1 := eval_val M (sortOf_app hdec _) hed
  have d2 := eval_val M (sortOf_app hfail _) hef
  have d3 := eval_val M (sortOf_var _ _) hec
  have d4 := eval_val M (sortOf_app henc _) hec2
  have two : ∀ x y : D, M.truth (M.fn K.E.L.and [x, y]) ↔ M.truth x ∧ M.truth y := by
    intro x y
    rw [hl.sem.and]
    simp
  have set_ne : ∀ (τ : Valn D) (i j : Nat) (d : D), j ≠ i → τ.set i d j = τ j := fun τ i j d h => Valn.set_ne _ _ h
  rw [truth_mkForall]
  simp only [quantVal, Fm.eval, evals, hl.imp, truth_mkExists, truth_mkForall, two, hor, Lang.meq, hl.sem.eq, hl.not, e1, e2, e3, e4,
    d1, d2, d3, d4, Valn.set_self, set_ne, ne_eq, not_false_eq_true, Nat.reduceEqDiff, or_assoc, Ctx.accepts]
  constructor
  · intro h c k hc hk hacc
    obtain ⟨m, hm, r, hr, h1, h2⟩ := h c hc k hk hacc
    refine ⟨m, r, hm, hr, h1, ?_⟩
    rcases h2 with h | h | h | ⟨m2, hm2, k2, hk2, r2, hr2, h, h'⟩
    · exact .inl h
    · exact .inr (.inl h)
    · exact .inr (.inr (.inl h))
    · exact .inr (.inr (.inr ⟨m2, k2, r2, hm2, hk2, hr2, h, h'⟩))
  · intro h c hc k hk hacc
    obtain ⟨m, r, hm, hr, h1, h2⟩ := h c k hc hk hacc
    refine ⟨m, hm, r, hr, h1, ?_⟩
    rcases h2 with h | h | h | ⟨m2, k2, r2, hm2, hk2, hr2, h, h'⟩
    · exact .inl h
    · exact .inr (.inl h)
    · exact .inr (.inr (.inl h))
    · exact .inr (.inr (.inr ⟨m2, hm2, k2, hk2, r2, hr2, h, h'⟩))

end
end Cry
end CV
