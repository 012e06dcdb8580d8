import Verif.GrammarPrint
import Verif.SquirrelProps
/-
The terms and names that come from a Squirrel file can be printed and read (see GrammarPrint.lean): what
`squirrel/mod.rs:28-38` dumps.
-/
set_option linter.unusedVariables false
set_option linter.unusedSimpArgs false
namespace CV
namespace Sq
open Txt2

/-! ### Names -/

/-- SPECIFICATION. The ASCII characters other than `>`, `?`, `~` and DEL. -/
def Chr (c : Char) : Prop := c.toNat < 128 ∧ c.toNat % 64 < 62

instance (c : Char) : Decidable (Chr c) := inferInstanceAs (Decidable (_ ∧ _))

/-- SPECIFICATION. A symbol with a name in CryptoVampire, or one made of such characters. -/
def Sy (s : String) : Prop := (∃ p ∈ remapped, p.1 = s) ∨ ∀ c ∈ s.toList, Chr c

/-- SPECIFICATION. The symbols whose names in CryptoVampire are operators or keywords. -/
def noName : List String := ["<=>", "=>", "=", "<>", "if"]

/-- SPECIFICATION. A symbol whose name in CryptoVampire can be read. -/
def Wd (s : String) : Prop := Sy s ∧ s ∉ noName

/-- SPECIFICATION. The symbols that become infix operators. -/
def opSyms : List String := ["&&", "and", "||", "or", "<=>", "=>", "=", "<>"]

/-- Enough for `Plain`, and decidable. -/
def plainB (s : Tx) : Bool :=
  (match s with
    | [] => false
    | c :: r => c.toNat < 128 && c.isAlpha && r.all fun d => d.isAlphanum || d == '_') &&
  !(c!"if").isPrefixOf s && !decide (s = c!"try") && !(c!"tryfind").isPrefixOf s && !decide (s = c!"let") &&
  !decide (s = c!"forall") && !decide (s = c!"exists")

theorem plainB_ok {U : Char → Bool} {s : Tx} (h : plainB s = true) : Plain U s := by
  simp only [plainB, Bool.and_eq_true, Bool.not_eq_true', decide_eq_false_iff_not] at h
  obtain ⟨⟨⟨⟨⟨⟨h₁, h₂⟩, h₃⟩, h₄⟩, h₅⟩, h₆⟩, h₇⟩ := h
  refine ⟨?_, h₂, h₃, h₄, h₅, h₆, h₇⟩
  cases s with
  | nil => cases h₁
  | cons c r =>
    simp only [Bool.and_eq_true, decide_eq_true_eq, List.all_eq_true, Bool.or_eq_true, beq_iff_eq] at h₁
    refine ⟨c, r, rfl, by rw [Alpha, if_pos h₁.1.1]; exact h₁.1.2, fun d hd => ?_⟩
    rcases h₁.2 d hd with h | h <;> simp [NameC, h]

theorem utf8_ascii (s : String) (h : ∀ c ∈ s.toList, c.toNat < 128) : utf8 s = s.toList.map Char.toNat := by
  have e : s.toByteArray.data.toList = s.toList.flatMap String.utf8EncodeChar := by
    rw [← String.utf8Encode_toList, List.utf8Encode, List.toList_data_toByteArray]
  rw [utf8, e]
  generalize s.toList = l at h
  induction l with
  | nil => rfl
  | cons c l ih =>
    have hc : c.val.toNat ≤ 127 := by have := h c (by simp); exact Nat.le_of_lt_succ this
    have hc' : c.val.toNat < 256 := by omega
    rw [List.flatMap_cons, List.map_append, ih fun d hd => h d (by simp [hd]), List.map_cons]
    simp only [String.utf8EncodeChar, hc, if_true]
    simp only [List.map_cons, List.map_nil, List.singleton_append, List.cons.injEq, and_true]
    rw [UInt8.toNat_ofNat_of_lt' (by simpa using hc')]
    rfl

theorem sym_alnum : ∀ n, n < 62 → (sym n).isAlphanum = true := by decide +kernel

theorem b64_alnum : ∀ l : List Nat, (∀ x ∈ l, x < 128 ∧ x % 64 < 62) → ∀ c ∈ b64 l, c.isAlphanum = true
  | [], _, c, hc => by cases hc
  | [a], h, c, hc => by
    have ha := h a (by simp)
    simp only [b64, List.mem_cons, List.not_mem_nil, or_false] at hc
    rcases hc with rfl | rfl <;> exact sym_alnum _ (by omega)
  | [a, b], h, c, hc => by
    have ha := h a (by simp)
    have hb := h b (by simp)
    simp only [b64, List.mem_cons, List.not_mem_nil, or_false] at hc
    rcases hc with rfl | rfl | rfl <;> exact sym_alnum _ (by omega)
  | a :: b :: d :: r, h, c, hc => by
    have ha := h a (by simp)
    have hb := h b (by simp)
    have hd := h d (by simp)
    simp only [b64, List.mem_cons] at hc
    rcases hc with rfl | rfl | rfl | rfl | hc
    · exact sym_alnum _ (by omega)
    · exact sym_alnum _ (by omega)
    · exact sym_alnum _ (by omega)
    · exact sym_alnum _ (by omega)
    · exact b64_alnum r (fun x hx => h x (by simp [hx])) c hc

theorem remapped_plain : ∀ p ∈ remapped, p.1 ∉ noName → plainB p.2.toList = true := by decide +kernel

theorem remap_none {s : String} (h : remap s = none) : ¬ ∃ p ∈ remapped, p.1 = s := by
  rintro ⟨p, hp, rfl⟩
  have : ∀ p ∈ remapped, (remap p.1).isSome = true := by decide +kernel
  have := this p hp
  rw [h] at this
  cases this

variable {U : Char → Bool} {alnum : Char → Bool}

theorem pref_plain (k : Kind) {r : Tx} (h : ∀ c ∈ r, c.isAlphanum = true ∨ c = '_') : Plain U (k.pref.toList ++ r) := by
  have ha : ∀ p : Tx, (p.all fun d => d.isAlphanum || d == '_') = true → ((p ++ r).all fun d => d.isAlphanum || d == '_') = true := by
    intro p hp
    rw [List.all_append, hp, Bool.true_and, List.all_eq_true]
    intro c hc
    rcases h c hc with h | h <;> simp [h]
  have step : ∀ (c : Char) (p : Tx), c.toNat < 128 → c.isAlpha = true → (p.all fun d => d.isAlphanum || d == '_') = true →
      ((c!"if").isPrefixOf (c :: (p ++ r)) = false ∧ c :: (p ++ r) ≠ c!"try" ∧ (c!"tryfind").isPrefixOf (c :: (p ++ r)) = false ∧
        c :: (p ++ r) ≠ c!"let" ∧ c :: (p ++ r) ≠ c!"forall" ∧ c :: (p ++ r) ≠ c!"exists") → Plain U (c :: (p ++ r)) := by
    intro c p h₁ h₂ h₃ ⟨a, b, d, e, f, g⟩
    refine plainB_ok ?_
    have := ha p h₃
    simp only [plainB, h₁, h₂, this, a, b, d, e, f, g, decide_true, decide_false, Bool.and_self, Bool.not_false, Bool.true_and]
  cases k
  · have e : Kind.pref .variable = String.ofList ('v' :: c!"ar_") := rfl
    rw [e, String.toList_ofList]
    exact step 'v' c!"ar_" (by decide) (by decide) (by decide) (by simp [List.isPrefixOf])
  · have e : Kind.pref .function = String.ofList ('f' :: c!"un_") := rfl
    rw [e, String.toList_ofList]
    exact step 'f' c!"un_" (by decide) (by decide) (by decide) (by simp [List.isPrefixOf])
  · have e : Kind.pref .step = String.ofList ('s' :: c!"tep_") := rfl
    rw [e, String.toList_ofList]
    exact step 's' c!"tep_" (by decide) (by decide) (by decide) (by simp [List.isPrefixOf])
  · have e : Kind.pref .mac = String.ofList ('f' :: c!"un_") := rfl
    rw [e, String.toList_ofList]
    exact step 'f' c!"un_" (by decide) (by decide) (by decide) (by simp [List.isPrefixOf])
  · have e : Kind.pref .cell = String.ofList ('c' :: c!"ell_") := rfl
    rw [e, String.toList_ofList]
    exact step 'c' c!"ell_" (by decide) (by decide) (by decide) (by simp [List.isPrefixOf])
  · have e : Kind.pref .name = String.ofList ('n' :: c!"ame_") := rfl
    rw [e, String.toList_ofList]
    exact step 'n' c!"ame_" (by decide) (by decide) (by decide) (by simp [List.isPrefixOf])
  · have e : Kind.pref .sort = String.ofList ('s' :: c!"ort_") := rfl
    rw [e, String.toList_ofList]
    exact step 's' c!"ort_" (by decide) (by decide) (by decide) (by simp [List.isPrefixOf])

/-- Sanitised names can be read. -/
theorem san_plain (ha : ∀ c, c.toNat < 128 → alnum c = true → c.isAlphanum = true) (k : Kind) {s : String} (h : Wd s) :
    Plain U (sanitize alnum k s).toList := by
  cases hr : remap s with
  | some r =>
    simp only [sanitize, hr]
    have hm : (s, r) ∈ remapped := lookup_mem hr
    exact plainB_ok (remapped_plain (s, r) hm h.2)
  | none =>
    have hc : ∀ c ∈ s.toList, Chr c := h.1.resolve_left (remap_none hr)
    simp only [sanitize, hr, String.toList_append]
    refine pref_plain k fun c hc' => ?_
    rw [encodeIfNeeded] at hc'
    split at hc'
    · rename_i hall
      exact .inl (ha c (hc c hc').1 (List.all_eq_true.1 hall c hc'))
    · rw [String.toList_append, List.mem_append] at hc'
      rcases hc' with hc' | hc'
      · rw [show ("_base64_" : String) = String.ofList c!"_base64_" from rfl, String.toList_ofList] at hc'
        have : ∀ c ∈ c!"_base64_", c.isAlphanum = true ∨ c = '_' := by decide
        exact this c hc'
      · rw [String.toList_ofList, utf8_ascii s fun c hc'' => (hc c hc'').1] at hc'
        refine .inl (b64_alnum _ (fun x hx => ?_) c hc')
        obtain ⟨d, hd, rfl⟩ := List.mem_map.1 hx
        exact hc d hd

/-! ### Values of the monad of variants -/

/-- All the variants satisfy `P`, if there are any. -/
def RAll {α : Type} (P : α → Prop) (r : Res (AoO α)) : Prop := ∀ a, r = .ok a → ∀ x ∈ a.toList, P x

section
variable {α β : Type} {P : α → Prop} {Q : β → Prop}

theorem get_toList {a : AoO α} {i : Nat} {x : α} (h : a.get i = some x) : x ∈ a.toList := by
  cases a with
  | all l => exact List.mem_of_getElem? h
  | any y => cases h; exact List.mem_singleton.2 rfl
  | one j y =>
    simp only [AoO.get] at h
    split at h
    · cases h; exact List.mem_singleton.2 rfl
    · cases h

theorem ownedGet_toList {a : AoO α} {i : Nat} {x : α} (h : a.ownedGet i = .ok x) : x ∈ a.toList := by
  rw [AoO.ownedGet] at h
  split at h
  · cases h; exact get_toList ‹_›
  · cases h

theorem res_bind_ok {x : Res α} {f : α → Res β} {b : β} (h : x.bind f = .ok b) : ∃ a, x = .ok a ∧ f a = .ok b := by
  cases x with
  | ok a => exact ⟨a, rfl, h⟩
  | err => cases h
  | panic => cases h

theorem rall_pure {x : α} (h : P x) : RAll P (rpure x) := by
  intro a ha
  cases ha
  intro y hy
  rw [List.mem_singleton.1 hy]
  exact h

theorem rall_err : RAll P .err := nofun

theorem goAll_all {f : α → Res (AoO β)} : ∀ (l : List α) (i : Nat) (bs : List β), (∀ a ∈ l, RAll Q (f a)) →
    AoO.goAll f i l = .ok bs → ∀ b ∈ bs, Q b
  | [], _, bs, _, h, b, hb => by cases h; cases hb
  | a :: l, i, bs, hf, h, b, hb => by
    rw [AoO.goAll] at h
    obtain ⟨r, hr, h⟩ := res_bind_ok h
    obtain ⟨x, hx, h'⟩ := res_bind_ok h
    obtain ⟨xs, hxs, h''⟩ := res_bind_ok h'
    cases h''
    rcases List.mem_cons.1 hb with rfl | hb
    · exact hf a (by simp) r hr _ (ownedGet_toList hx)
    · exact goAll_all l (i + 1) xs (fun a' ha' => hf a' (by simp [ha'])) hxs b hb

theorem rall_bind {x : Res (AoO α)} {f : α → Res (AoO β)} (hx : RAll P x) (hf : ∀ a, P a → RAll Q (f a)) : RAll Q (rbind x f) := by
  intro b hb
  obtain ⟨a, ha, h⟩ := res_bind_ok hb
  have hp := hx a ha
  cases a with
  | all l =>
    obtain ⟨bs, hbs, h'⟩ := res_bind_ok h
    cases h'
    exact goAll_all l 0 bs (fun a ha => hf a (hp a ha)) hbs
  | any e =>
    obtain ⟨r, hr, h'⟩ := res_bind_ok h
    cases r with
    | one => cases h'
    | all l => cases h'; exact hf e (hp e (List.mem_singleton.2 rfl)) _ hr
    | any y => cases h'; exact hf e (hp e (List.mem_singleton.2 rfl)) _ hr
  | one i e =>
    obtain ⟨r, hr, h'⟩ := res_bind_ok h
    obtain ⟨y, hy, h''⟩ := res_bind_ok h'
    cases h''
    intro z hz
    rw [List.mem_singleton.1 hz]
    exact hf e (hp e (List.mem_singleton.2 rfl)) _ hr _ (ownedGet_toList hy)

theorem collect_ok : ∀ {rs : List (Res α)} {l : List α}, Res.collect rs = .ok l → rs = l.map .ok
  | [], l, h => by cases h; rfl
  | r :: rs, l, h => by
    rw [Res.collect] at h
    obtain ⟨a, ha, h⟩ := res_bind_ok h
    obtain ⟨l', hl', h'⟩ := res_bind_ok h
    cases h'
    rw [ha, collect_ok hl']
    rfl

theorem column_all {args : List (AoO α)} {i : Nat} {l : List α} (h : AoO.column args i = .ok l)
    (hp : ∀ a ∈ args, ∀ x ∈ a.toList, P x) : l.length = args.length ∧ ∀ x ∈ l, P x := by
  have e := collect_ok h
  refine ⟨by simpa using (congrArg List.length e).symm, fun x hx => ?_⟩
  have : Res.ok x ∈ args.map fun a => a.ownedGet i := by rw [e]; exact List.mem_map_of_mem hx
  obtain ⟨a, ha, h'⟩ := List.mem_map.1 this
  exact hp a ha x (ownedGet_toList h')

theorem transpose_all {args : List (AoO α)} (hp : ∀ a ∈ args, ∀ x ∈ a.toList, P x) :
    RAll (fun l => l.length = args.length ∧ ∀ x ∈ l, P x) (AoO.transposeIter args) := by
  intro r hr
  rw [AoO.transposeIter] at hr
  obtain ⟨sh, -, h⟩ := res_bind_ok hr
  cases sh with
  | all n =>
    obtain ⟨ls, hls, h'⟩ := res_bind_ok h
    cases h'
    have e := collect_ok hls
    intro l hl
    have : Res.ok l ∈ (List.range n).map (AoO.column args) := by rw [e]; exact List.mem_map_of_mem hl
    obtain ⟨i, -, h''⟩ := List.mem_map.1 this
    exact column_all h'' hp
  | any =>
    obtain ⟨l, hl, h'⟩ := res_bind_ok h
    cases h'
    intro l' hl'
    rw [List.mem_singleton.1 hl']
    exact column_all hl hp
  | one i =>
    obtain ⟨l, hl, h'⟩ := res_bind_ok h
    cases h'
    intro l' hl'
    rw [List.mem_singleton.1 hl']
    exact column_all hl hp

theorem seq_all {rs : List (Res (AoO α))} {f : List α → Res (AoO β)} (hp : ∀ r ∈ rs, RAll P r)
    (hf : ∀ l : List α, l.length = rs.length → (∀ x ∈ l, P x) → RAll Q (f l)) :
    RAll Q ((Res.collect rs).bind fun args => rbind (AoO.transposeIter args) f) := by
  intro b hb
  obtain ⟨args, hargs, h⟩ := res_bind_ok hb
  have e := collect_ok hargs
  have hlen : args.length = rs.length := by rw [e]; simp
  refine rall_bind (P := fun l => l.length = args.length ∧ ∀ x ∈ l, P x) (transpose_all fun a ha => ?_) (fun l hl => ?_) b h
  · refine hp (.ok a) ?_ a rfl
    rw [e]
    exact List.mem_map_of_mem ha
  · exact hf l (hl.1.trans hlen) hl.2
end

/-! ### Terms -/

/-- SPECIFICATION. A type with a name that can be read. -/
def TyOK : JTy → Prop
  | .tbase p => Wd p.toStr
  | _ => True

/-- SPECIFICATION. A variable with a name and a type that can be read. -/
def VarOK (v : JVar) : Prop := Wd v.name ∧ TyOK v.sort

variable (C : Ctx)

/-- SPECIFICATION. The Squirrel terms whose names can be read, and where operators have at least two arguments. Whatever is not
supported is in. -/
inductive Fine : JT → Prop
  | app (s : Path) (l : List JT) : Sy s.toStr → (s.toStr ∈ opSyms → 2 ≤ arity (takesTuple (C.opArgs s)) l) → (∀ a ∈ l, Fine a) →
      Fine (.app (.fun_ s) l)
  | fun_ (s : Path) : Wd s.toStr → Fine (.fun_ s)
  | name (s : Path) (l : List JT) : Sy s.toStr → (s.toStr ∈ opSyms → 2 ≤ arity (takesTuple (C.nameArgs s)) l) → (∀ a ∈ l, Fine a) →
      Fine (.name s l)
  | mac (s : Path) (l : List JT) (ts : JT) : Wd s.toStr → (∀ vs, C.macs s = some (.global vs) → s.toStr ≠ "output" ∧ s.toStr ≠ "cond" ∧
      ∀ v ∈ vs, Wd v.name) → (∀ a ∈ l, Fine a) → Fine ts → Fine (.mac s l ts)
  | action (s : Path) (l : List JT) : Wd s.toStr → (∀ a ∈ l, Fine a) → Fine (.action s l)
  | var (v : JVar) : Wd v.name → Fine (.var v)
  | letin (v d b : JT) : Fine (.letin v d b)
  | tuple (l : List JT) : (∀ a ∈ l, Fine a) → Fine (.tuple l)
  | proj (i : Nat) (t : JT) : Fine t → Fine (.proj i t)
  | diff (l : List (String × JT)) : (∀ d ∈ l, Fine d.2) → Fine (.diff l)
  | find (vs : List JT) (c s f : JT) : (∀ v, JT.var v ∈ vs → VarOK v) → Fine c → Fine s → Fine f → Fine (.find vs c s f)
  | quant (q : JQ) (vs : List JT) (t : JT) : (∀ v, JT.var v ∈ vs → VarOK v) → Fine t → Fine (.quant q vs t)

variable {C}

theorem lit_plain {s : String} (h : plainB s.toList = true) : Plain U s.toList := plainB_ok h

theorem op_remapped : ∀ p ∈ remapped, (Op.get p.2).isSome = true → p.1 ∈ opSyms ∧ Op.get p.2 ≠ some .hardEq := by decide +kernel

theorem alias_prefix : ∀ o : Op, ∀ a ∈ o.alias, ∀ k : Kind, k.pref.toList.isPrefixOf a.toList = false := by
  intro o a ha k
  cases o <;> revert a <;> cases k <;> decide +kernel

theorem op_san (alnum : Char → Bool) (k : Kind) {s : String} {op : Op} (h : Op.get (sanitize alnum k s) = some op) :
    s ∈ opSyms ∧ op ≠ .hardEq := by
  cases hr : remap s with
  | some r =>
    simp only [sanitize, hr] at h
    have := op_remapped _ (lookup_mem hr) (by rw [h]; rfl)
    exact ⟨this.1, fun e => this.2 (e ▸ h)⟩
  | none =>
    simp only [sanitize, hr, Op.get] at h
    have ha := List.find?_some h
    have := alias_prefix op _ (List.contains_iff_mem.1 ha) k
    rw [String.toList_append] at this
    have ht : k.pref.toList.isPrefixOf (k.pref.toList ++ (encodeIfNeeded alnum s).toList) = true := by simp
    rw [ht] at this
    cases this

theorem ty_ok (ha : ∀ c, c.toNat < 128 → C.alnum c = true → c.isAlphanum = true) {t : JTy} {s : String} (ht : TyOK t)
    (h : dTy C t = some s) : IdTx U s.toList := by
  cases t with
  | tbase p =>
    simp only [dTy] at h
    split at h
    · cases h; exact (lit_plain (by decide +kernel)).id
    · cases h; exact (san_plain ha .sort ht).id
  | message => cases h; exact (lit_plain (by decide +kernel)).id
  | boolean => cases h; exact (lit_plain (by decide +kernel)).id
  | index => cases h; exact (lit_plain (by decide +kernel)).id
  | timestamp => cases h; exact (lit_plain (by decide +kernel)).id
  | tuple => cases h; exact (lit_plain (by decide +kernel)).id
  | unsupported => cases h
  | name => cases h; exact (lit_plain (by decide +kernel)).id

theorem binds_ok (ha : ∀ c, c.toNat < 128 → C.alnum c = true → c.isAlphanum = true) {vs : List JT}
    (h : ∀ v, JT.var v ∈ vs → VarOK v) : RAll (fun l => ∀ b ∈ l, PBnd U b) (bindTerms C vs) := by
  rw [bindTerms]
  simp only [oks_bind, Res.bind, transpose_any]
  split
  · exact rall_err
  · refine rall_bind (P := fun l => ∀ b ∈ l, PBnd U b) (rall_pure ?_) fun l hl => rall_pure hl
    intro b hb
    obtain ⟨t, ht, hbt⟩ := List.mem_filterMap.1 hb
    cases t with
    | var v =>
      have hv := h v ht
      simp only [dBind, Option.map_eq_some_iff] at hbt
      obtain ⟨s, hs, rfl⟩ := hbt
      exact ⟨.inl (san_plain ha .variable hv.1).id, ty_ok ha hv.2 hs⟩
    | _ => cases hbt

theorem noName_ops : ∀ s ∈ noName, s = "if" ∨ s ∈ opSyms := by decide +kernel
theorem ops_get : ∀ s ∈ opSyms, ∀ r, remap s = some r → (Op.get r).isSome = true := by
  intro s hs r hr
  have : ∀ s ∈ opSyms, ((remap s).bind Op.get).isSome = true := by decide +kernel
  have := this s hs
  rw [hr] at this
  exact this
theorem ops_remap : ∀ s ∈ opSyms, (remap s).isSome = true := by decide +kernel

theorem finish_ok (ha : ∀ c, c.toNat < 128 → C.alnum c = true → c.isAlphanum = true) (k : Kind) {s : String} {l : List Tm} (hs : Sy s)
    (ho : s ∈ opSyms → 2 ≤ l.length) (hl : ∀ t ∈ l, PTm U t) : RAll (PTm U) (finishApp (C.san k s) l) := by
  unfold finishApp
  split
  · split
    · exact rall_pure (.ite _ _ _ (hl _ (by simp)) (hl _ (by simp)) (hl _ (by simp)))
    · exact rall_err
  · rename_i hif
    split
    · rename_i op hop
      have := op_san C.alnum k hop
      exact rall_pure (.infx op l this.2 (ho this.1) hl)
    · rename_i hop
      refine rall_pure (.app _ l (san_plain ha k ⟨hs, fun hn => ?_⟩) hl)
      rcases noName_ops s hn with rfl | hn
      · exact hif rfl
      · obtain ⟨r, hr⟩ := Option.isSome_iff_exists.1 (ops_remap s hn)
        have := ops_get s hn r hr
        simp only [Ctx.san, sanitize, hr] at hop
        rw [hop] at this
        cases this

theorem byLabel_mem {α : Type} {l : List (String × α)} {d : String × α} (h : d ∈ byLabel l) : d ∈ l := (byLabel_perm l).mem_iff.1 h

theorem tuple_ok {l : List (Res (AoO Tm))} (h : ∀ r ∈ l, RAll (PTm U) r) : ∀ acc, RAll (PTm U) acc → RAll (PTm U) (convTuple acc l) := by
  induction l with
  | nil => exact fun _ h => h
  | cons r l ih =>
    intro acc hacc
    refine ih (fun x hx => h x (by simp [hx])) _ ?_
    intro b hb
    obtain ⟨a, ha', hb⟩ := res_bind_ok hb
    obtain ⟨t, ht, hb'⟩ := res_bind_ok hb
    refine rall_bind (transpose_all (P := PTm U) (args := [t, a]) ?_) (fun l hl => ?_) b hb'
    · intro x hx
      rcases List.mem_cons.1 hx with rfl | hx
      · exact h _ (by simp) _ ht
      · rw [List.mem_singleton.1 hx]; exact hacc _ ha'
    · match l, hl with
      | [x, y], hl => exact rall_pure (.app _ _ (lit_plain (by decide +kernel)) hl.2)

theorem wrap_ok {f : String} (hf : plainB f.toList = true) {x : Res (AoO Tm)} (h : RAll (PTm U) x) : RAll (PTm U) (wrap1 f x) :=
  rall_bind h fun b hb => rall_pure (.app f [b] (lit_plain hf) (by simpa using hb))

theorem snd_ok : ∀ (n : Nat) {x : Res (AoO Tm)}, RAll (PTm U) x → RAll (PTm U) (sndIter n x)
  | 0, _, h => h
  | n + 1, _, h => snd_ok n (wrap_ok (by decide +kernel) h)

theorem apply_ok (ha : ∀ c, c.toNat < 128 → C.alnum c = true → c.isAlphanum = true) (k : Kind) {s : String} (hs : Wd s)
    {rs : List (Res (AoO Tm))} (h : ∀ r ∈ rs, RAll (PTm U) r) : RAll (PTm U) (applyFun (C.san k s) rs) :=
  seq_all h fun l _ hl => rall_pure (.app _ _ (san_plain ha k hs) hl)

theorem app_ok (ha : ∀ c, c.toNat < 128 → C.alnum c = true → c.isAlphanum = true) (k : Kind) {symb : Path} {tys : Option (List JTy)}
    {sh : Shape} {l : List JT} (hs : Sy symb.toStr) (ho : symb.toStr ∈ opSyms → 2 ≤ arity (takesTuple tys) l)
    (h : ∀ a ∈ l, RAll (PTm U) (convert C sh a)) (h' : ∀ a ∈ l, ∀ els, convertTup C sh a = some els → ∀ r ∈ els, RAll (PTm U) r) :
    RAll (PTm U) (convApp C k symb tys (convertL C sh l) (convertHd C sh l)) := by
  have hr : ∀ r ∈ convertL C sh l, RAll (PTm U) r := by
    intro r hr
    rw [convertL_eq] at hr
    obtain ⟨a, ha', rfl⟩ := List.mem_map.1 hr
    exact h a ha'
  have hlen : (if takesTuple tys then (convertHd C sh l).getD (convertL C sh l) else convertL C sh l).length = arity (takesTuple tys) l := by
    cases hb : takesTuple tys with
    | false =>
      simp only [Bool.false_eq_true, if_false, convertL_eq, List.length_map]
      rw [arity.eq_def]
      split <;> simp
    | true =>
      cases l with
      | nil => simp [convertHd, convertL, arity]
      | cons t l =>
        cases t <;> simp [convertHd, convertTup, convertL_eq, arity]
  rw [convApp]
  refine seq_all (P := PTm U) ?_ fun m hm hp => finish_ok ha k hs (fun hop => ?_) hp
  · split
    · cases hh : convertHd C sh l with
      | none => exact hr
      | some els =>
        cases l with
        | nil => cases hh
        | cons t l => exact h' t (by simp) els hh
    · exact hr
  · rw [hm, hlen]
    exact ho hop

theorem mem_convertL {sh : Shape} {l : List JT} {P : Res (AoO Tm) → Prop} (h : ∀ a ∈ l, P (convert C sh a)) : ∀ r ∈ convertL C sh l, P r := by
  intro r hr
  rw [convertL_eq] at hr
  obtain ⟨a, ha', rfl⟩ := List.mem_map.1 hr
  exact h a ha'

theorem remap_cases : ∀ p ∈ remapped, p.1 ≠ "output" → p.1 ≠ "cond" → p.2.toList ≠ c!"msg" ∧ p.2.toList ≠ c!"cond" := by decide +kernel

theorem san_mac (alnum : Char → Bool) {s : String} (h₁ : s ≠ "output") (h₂ : s ≠ "cond") :
    (sanitize alnum .mac s).toList ≠ c!"msg" ∧ (sanitize alnum .mac s).toList ≠ c!"cond" := by
  cases hr : remap s with
  | some r =>
    simp only [sanitize, hr]
    exact remap_cases _ (lookup_mem hr) h₁ h₂
  | none =>
    simp only [sanitize, hr, String.toList_append]
    have : Kind.mac.pref.toList = 'f' :: c!"un_" := by decide +kernel
    rw [this]
    simp

theorem convert_ok (ha : ∀ c, c.toNat < 128 → C.alnum c = true → c.isAlphanum = true) {t : JT} (h : Fine C t) :
    ∀ sh, RAll (PTm U) (convert C sh t) ∧ ∀ els, convertTup C sh t = some els → ∀ r ∈ els, RAll (PTm U) r := by
  induction h with
  | app s l hs ho _ ih =>
    intro sh
    refine ⟨?_, by simp [convertTup]⟩
    rw [convert]
    exact app_ok ha .function hs ho (fun a h => (ih a h sh).1) fun a h => (ih a h sh).2
  | fun_ s hs =>
    intro sh
    refine ⟨?_, by simp [convertTup]⟩
    rw [convert, convFun]
    split
    · exact rall_pure (.app0 _ (.inl (san_plain ha .function hs)))
    · exact rall_err
  | name s l hs ho _ ih =>
    intro sh
    refine ⟨?_, by simp [convertTup]⟩
    rw [convert]
    exact app_ok ha .name hs ho (fun a h => (ih a h sh).1) fun a h => (ih a h sh).2
  | mac s l ts hs hg _ _ ih iht =>
    intro sh
    refine ⟨?_, by simp [convertTup]⟩
    rw [convert, convMac]
    have hl := mem_convertL fun a h => (ih a h sh).1
    have hts := (iht sh).1
    have hall : ∀ r ∈ convertL C sh l ++ [convert C sh ts], RAll (PTm U) r := by
      intro r hr
      rcases List.mem_append.1 hr with hr | hr
      · exact hl r hr
      · rw [List.mem_singleton.1 hr]; exact hts
    split
    · exact apply_ok ha .mac hs (by simpa using hts)
    · exact apply_ok ha .mac hs hall
    · exact apply_ok ha .mac hs hall
    · rename_i vs hm
      obtain ⟨h₁, h₂, hv⟩ := hg vs hm
      have := san_mac C.alnum h₁ h₂
      refine seq_all (P := PTm U) ?_ fun m _ hp => rall_pure (.mac _ _ (san_plain ha .mac hs) this.1 this.2 hp)
      intro r hr
      rw [List.append_assoc] at hr
      rcases List.mem_append.1 hr with hr | hr
      · exact hl r hr
      · rcases List.mem_append.1 hr with hr | hr
        · obtain ⟨v, hv', rfl⟩ := List.mem_map.1 hr
          exact rall_pure (.cvar _ (.inl (san_plain ha .variable (hv v hv'))))
        · rw [List.mem_singleton.1 hr]; exact hts
    · exact rall_err
  | action s l hs _ ih =>
    intro sh
    refine ⟨?_, by simp [convertTup]⟩
    rw [convert]
    exact apply_ok ha .step hs (mem_convertL fun a h => (ih a h sh).1)
  | var v hv =>
    intro sh
    refine ⟨?_, by simp [convertTup]⟩
    rw [convert]
    exact rall_pure (.cvar _ (.inl (san_plain ha .variable hv)))
  | letin v d b =>
    intro sh
    refine ⟨?_, by simp [convertTup]⟩
    rw [convert]
    exact rall_err
  | tuple l _ ih =>
    intro sh
    have hl := mem_convertL fun a h => (ih a h sh).1
    refine ⟨?_, fun els he => ?_⟩
    · rw [convert]
      exact tuple_ok hl _ (rall_pure (.app0 _ (.inl (lit_plain (by decide +kernel)))))
    · rw [convertTup] at he
      cases he
      exact hl
  | proj i t _ ih =>
    intro sh
    refine ⟨?_, by simp [convertTup]⟩
    rw [convert]
    exact wrap_ok (by decide +kernel) (snd_ok _ (ih sh).1)
  | diff l _ ih =>
    intro sh
    refine ⟨?_, by simp [convertTup]⟩
    rw [convert]
    intro b hb
    obtain ⟨sh', -, hb'⟩ := res_bind_ok hb
    refine rall_bind (P := fun r => RAll (PTm U) r) ?_ (fun r hr => hr) b hb'
    intro a hp x hx
    rw [pick] at hp
    have hs : ∀ y ∈ ((byLabel (convertD C sh' l)).map (·.2)), RAll (PTm U) y := by
      intro y hy
      obtain ⟨d, hd, rfl⟩ := List.mem_map.1 hy
      have := byLabel_mem hd
      rw [convertD_eq] at this
      obtain ⟨e, he, rfl⟩ := List.mem_map.1 this
      exact (ih e he sh').1
    have := rall_bind (P := fun _ : Unit => True) (Q := fun r => RAll (PTm U) r) (x := .ok sh.toAoov)
      (f := fun _ => .ok (.all ((byLabel (convertD C sh' l)).map (·.2)))) (fun _ _ _ _ => trivial)
      (fun _ _ a ha' => by cases ha'; exact hs)
    exact this a hp x hx
  | find vs c s f hv _ _ _ ih₁ ih₂ ih₃ =>
    intro sh
    refine ⟨?_, by simp [convertTup]⟩
    rw [convert, convFind]
    exact rall_bind (ih₁ sh).1 fun _ h₁ => rall_bind (ih₂ sh).1 fun _ h₂ => rall_bind (ih₃ sh).1 fun _ h₃ =>
      rall_bind (binds_ok ha hv) fun _ h => rall_pure (.find _ _ _ _ h h₁ h₂ h₃)
  | quant q vs t hv _ ih =>
    intro sh
    refine ⟨?_, by simp [convertTup]⟩
    rw [convert]
    simp only [convQuant]
    cases q with
    | forall_ => exact rall_bind (ih sh).1 fun _ h₁ => rall_bind (binds_ok ha hv) fun _ h => rall_pure (.quant _ _ _ h h₁)
    | exists_ => exact rall_bind (ih sh).1 fun _ h₁ => rall_bind (binds_ok ha hv) fun _ h => rall_pure (.quant _ _ _ h h₁)
    | seq => exact rall_err
    | lambda => exact rall_err

end Sq

open Txt2 Sq
open Prs (Out)

/-- **C76.** The name that a Squirrel symbol gets is one that can be read and start a term, if the symbol consists of ASCII characters
without `>`, `?` and `~`, or has a name in CryptoVampire that is not an operator. -/
theorem C76_sanitized (U alnum : Char → Bool) (ha : ∀ c, c.toNat < 128 → alnum c = true → c.isAlphanum = true) (k : Kind) (s : String)
    (h : Wd s) : Plain U (sanitize alnum k s).toList := san_plain ha k h

/-- **C76, refuted.** Other symbols can get names that cannot be read. -/
theorem C76_sanitized_counterexample (U alnum : Char → Bool) (ha : alnum '>' = false) :
    ¬ IdTx U (sanitize alnum .function "ab>").toList := by
  have e : sanitize alnum .function "ab>" = String.ofList c!"fun__base64_YWI#" := by
    have hr : remap "ab>" = none := by decide +kernel
    have hall : ("ab>" : String).toList.all alnum = false := by
      rw [show ("ab>" : String) = String.ofList c!"ab>" from rfl, String.toList_ofList]
      simp [ha]
    simp only [sanitize, hr, encodeIfNeeded, hall]
    decide +kernel
  rw [e, String.toList_ofList]
  rintro ⟨c, r, h, -, hr⟩
  cases h
  have := hr '#' (by simp)
  simp [NameC, Alpha] at this

/-- **C76.** The terms that a Squirrel term is converted to are printed such that they are read as what they are, up to `f()` for `f`,
in every variant, if its names can be read and its operators have at least two arguments. -/
theorem C76_squirrel (dbg : Bool) (U : Char → Bool) (C : Ctx) (ha : ∀ c, c.toNat < 128 → C.alnum c = true → c.isAlphanum = true)
    (sh : Shape) (t : JT) (ht : Fine C t) (r : AoO Tm) (h : convert C sh t = .ok r) (k : AKind) :
    ∀ x ∈ r.toList, Reads dbg U (pFile [.assert k x []]) (.ok [.assert k x.back []]) := by
  intro x hx
  have := (convert_ok (U := U) ha ht sh).1 r h x hx
  exact C76_print_read_partial dbg U [.assert k x []] (by simp) (by simpa [PStm, POpts] using this)

-- The hypotheses can be met.
example : Wd "tag_A" := ⟨.inr (by decide +kernel), by decide +kernel⟩
example : Wd "&&" := ⟨.inl (by decide +kernel), by decide +kernel⟩

theorem Sq.exTerm_fine : Fine exCtx exTerm := by
  have hv : ∀ s : String, Wd s → Fine exCtx (exVar s) := fun s h => .var ⟨s, .message⟩ h
  have wx : ∀ s : String, (∀ c ∈ s.toList, Chr c) → s ∉ noName → Wd s := fun s h h' => ⟨.inr h, h'⟩
  refine .app ⟨[], "g"⟩ _ (.inr ?_) (by simp [arity]) ?_
  · exact (by decide +kernel : ∀ c ∈ (Path.toStr ⟨[], "g"⟩).toList, Chr c)
  · intro a h
    simp only [List.mem_cons, List.not_mem_nil, or_false] at h
    rcases h with rfl | rfl
    · refine .diff _ fun d hd => ?_
      simp only [List.mem_cons, List.not_mem_nil, or_false] at hd
      rcases hd with rfl | rfl
      · refine .diff _ fun d hd => ?_
        simp only [List.mem_cons, List.not_mem_nil, or_false] at hd
        rcases hd with rfl | rfl
        · exact hv "y" (wx _ (by decide +kernel) (by decide +kernel))
        · exact hv "z" (wx _ (by decide +kernel) (by decide +kernel))
      · exact hv "x" (wx _ (by decide +kernel) (by decide +kernel))
    · exact hv "w" (wx _ (by decide +kernel) (by decide +kernel))

example (dbg : Bool) (U : Char → Bool) : ∃ r, convert exCtx .any exTerm = .ok r ∧ (r.shape = .any ∨ r.shape = .all 2) ∧
    ∀ x ∈ r.toList, Reads dbg U (pFile [.assert .query x []]) (.ok [.assert .query x.back []]) := by
  obtain ⟨r, hr, hs⟩ := C36_total exCtx (Ps := ["A", "B"]) (by decide) (by simp) exTerm_wf exTerm_supp
  exact ⟨r, hr, hs, C76_squirrel dbg U exCtx (fun c _ h => h) .any exTerm exTerm_fine r hr .query⟩

end CV
