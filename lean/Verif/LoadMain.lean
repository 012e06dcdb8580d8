import Verif.LoadAll
/-
Properties C24, C45, C54–C58 of the problem built from a whole file.
-/
set_option linter.unusedSimpArgs false
namespace CV
namespace Prs
open Fm

/-! ## Cryptographic assumptions -/

/-- SPECIFICATION. The name is a function with exactly this signature. -/
def HasSig (D : DEnv) (f : String) (args : List Srt) (out : Srt) : Prop :=
  ∃ i, D.functions.lookup f = some (.func i) ∧ i.sig = .fixed args out

/-- SPECIFICATION. What each assumption of a file stands for. -/
inductive CryptoOk (D : DEnv) : CryptoDecl → Crypto → Prop
  | nonce {fs os} : CryptoOk D ⟨"nonce", fs, os⟩ .nonce
  | memoryCell {fs os} : CryptoOk D ⟨"memory_cell", fs, os⟩ .memoryCell
  | ufCma {n mac verify os h} : n ∈ ["uf-cma", "uf_cma", "euf-cma", "euf_cma"] → HasSig D mac [.message, .message] .message →
      HasSig D verify [.message, .message, .message] .condition → (h = true ↔ "hmac" ∈ os) →
      CryptoOk D ⟨n, [mac, verify], os⟩ (.ufCma mac verify h)
  | eufCma {n sign verify pk os} : n ∈ ["euf-cma", "euf_cma"] → HasSig D sign [.message, .message] .message →
      HasSig D verify [.message, .message, .message] .condition → HasSig D pk [.message] .message →
      CryptoOk D ⟨n, [sign, verify, pk], os⟩ (.eufCma sign verify pk)
  | intCtxt {n enc dec fail xs os} : n ∈ ["int-ctxt", "int_ctxt"] → HasSig D enc [.message, .message, .message] .message →
      HasSig D dec [.message, .message] .message → HasSig D fail [] .message → xs.length ≤ 1 →
      CryptoOk D ⟨n, enc :: dec :: fail :: xs, os⟩ (.intCtxt enc dec fail)
  | unfolding {os r d} : (r = true ↔ "recurisve" ∈ os) → (d = true ↔ "direct" ∈ os) →
      CryptoOk D ⟨"unfolding", [], os⟩ (.unfolding r d)

theorem sigUnify_static {st : Store} {args args' : List Srt} {out out' : Srt} :
    (∃ st', sigUnify .sym st (.stat out) (args.map .stat) (.stat out') (args'.map .stat) = some st') ↔ args' = args ∧ out' = out := by
  rw [C34_sig_declared]
  simp only [(C34_agree _ _).1]
  constructor
  · rintro ⟨h1, h2, h3⟩
    refine ⟨?_, h2.symm⟩
    clear h2
    induction args generalizing args' with
    | nil => cases args' <;> simp_all
    | cons a l ih =>
      cases args' with
      | nil => cases h1
      | cons b m =>
        have e := h3 (a, b) (by simp)
        simp only at e
        have := ih (args' := m) (by simpa using h1) fun z hz => h3 z (by simp [hz])
        rw [← e, this]
  · rintro ⟨rfl, rfl⟩
    refine ⟨rfl, rfl, fun z hz => ?_⟩
    induction args' with
    | nil => cases hz
    | cons a l ih =>
      simp only [List.zip_cons_cons, List.mem_cons] at hz
      rcases hz with rfl | hz
      · rfl
      · exact ih hz

theorem verifySign_ok {D : DEnv} {f : String} {args : List Srt} {out : Srt} {u : Unit} (ho : out = .message ∨ out = .condition)
    (ha : args.head? ≠ some .bool) : verifySign D f args out = .ok u ↔ HasSig D f args out := by
  simp only [verifySign, HasSig]
  cases hl : D.functions.lookup f with
  | none => simp [Out.ofOption, Out.bind]
  | some c =>
    cases c with
    | step => simp [Out.ofOption, Out.bind, Cache.asFunc]
    | cell => simp [Out.ofOption, Out.bind, Cache.asFunc]
    | func i =>
      simp only [Option.bind_some, Cache.asFunc, Out.ofOption, Out.bind, Option.some.injEq, Cache.func.injEq, exists_eq_left']
      obtain ⟨sym, sig, nm⟩ := i
      cases sig with
      | nary => simp
      | fixed a o =>
        have := @sigUnify_static [] args a out o
        simp only [reduceCtorEq, if_false, FSig.inst, FSig.fixed.injEq]
        rw [← this]
        cases sigUnify .sym [] (.stat out) (args.map .stat) (.stat o) (a.map .stat) <;> simp
      | eq2 =>
        simp only [reduceCtorEq, if_false, FSig.inst, iff_false]
        rcases ho with rfl | rfl <;> simp [sigUnify, Px.unify, Px.get, eqRealm]
      | ite3 =>
        simp only [reduceCtorEq, if_false, FSig.inst, iff_false]
        cases hs : sigUnify .sym ([] ++ [none]) (.stat out) (args.map .stat) (.var ([] : Store).length)
            [.stat .bool, .var ([] : Store).length, .var ([] : Store).length] with
        | none => simp
        | some st' =>
          obtain ⟨h1, _, h3⟩ := C34_sig_sound _ _ _ _ _ _ _ hs
          cases args with
          | nil => simp at h1
          | cons a l =>
            obtain ⟨x, y, e1, e2, e3⟩ := h3 (.stat a, .stat .bool) (by simp)
            simp only [Px.get, Option.some.injEq] at e1 e2
            subst e1 e2
            rw [(C34_agree _ _).1] at e3
            exact absurd (by simp [e3]) ha

/-- **C45.** Which cryptographic assumptions are accepted, and which feature each name, list of functions and list of options
switches on: the order, the repetition and the presence of other options do not matter. -/
theorem C45_recognised_partial (D : DEnv) (c : CryptoDecl) (y : Crypto) : parseCrypto D c = .ok y ↔ CryptoOk D c y := by
  obtain ⟨n, fs, os⟩ := c
  have hm : ∀ f u, verifySign D f [.message, .message] .message = .ok u ↔ HasSig D f [.message, .message] .message :=
    fun f u => verifySign_ok (.inl rfl) (by simp)
  have hv : ∀ f u, verifySign D f [.message, .message, .message] .condition = .ok u ↔ HasSig D f [.message, .message, .message] .condition :=
    fun f u => verifySign_ok (.inr rfl) (by simp)
  have he : ∀ f u, verifySign D f [.message, .message, .message] .message = .ok u ↔ HasSig D f [.message, .message, .message] .message :=
    fun f u => verifySign_ok (.inl rfl) (by simp)
  have hp : ∀ f u, verifySign D f [.message] .message = .ok u ↔ HasSig D f [.message] .message :=
    fun f u => verifySign_ok (.inl rfl) (by simp)
  have hf : ∀ f u, verifySign D f [] .message = .ok u ↔ HasSig D f [] .message :=
    fun f u => verifySign_ok (.inl rfl) (by simp)
  have huf : ∀ n ∈ ["uf-cma", "uf_cma", "euf-cma", "euf_cma"], ∀ fs, parseUfCma D fs os = .ok y → CryptoOk D ⟨n, fs, os⟩ y := by
    intro n hn fs h
    simp only [parseUfCma] at h
    split at h
    · simp only [bind_ok, hm, hv, Out.ok.injEq] at h
      obtain ⟨_, h1, _, h2, rfl⟩ := h
      exact .ufCma hn h1 h2 (by simp)
    · cases h
  constructor
  · intro h
    simp only [parseCrypto] at h
    split at h
    · rename_i e; subst e; cases h; exact .nonce
    split at h
    · rename_i e; subst e; cases h; exact .memoryCell
    split at h
    · rename_i e
      have hn : n ∈ ["euf-cma", "euf_cma"] := by simpa using e
      simp only [parseEufCma] at h
      split at h
      · exact huf n (by simp at hn ⊢; tauto) _ h
      · simp only [bind_ok, hm, hv, hp, Out.ok.injEq] at h
        obtain ⟨_, h1, _, h2, _, h3, rfl⟩ := h
        exact .eufCma hn h1 h2 h3
      · cases h
    split at h
    · rename_i e
      exact huf n (by simp; tauto) _ h
    split at h
    · rename_i e
      have hn : n ∈ ["int-ctxt", "int_ctxt"] := by simpa using e
      simp only [parseIntCtxt] at h
      split at h
      · simp only [bind_ok, hm, he, hf, Out.ok.injEq] at h
        obtain ⟨_, h1, _, h2, _, h3, rfl⟩ := h
        exact .intCtxt hn h1 h2 h3 (by simp)
      · simp only [bind_ok, hm, he, hf, Out.ok.injEq] at h
        obtain ⟨_, h1, _, h2, _, h3, rfl⟩ := h
        exact .intCtxt hn h1 h2 h3 (by simp)
      · cases h
    split at h
    · rename_i e; subst e
      simp only [parseUnfolding] at h
      split at h
      · rename_i e; subst e; cases h
        exact .unfolding (by simp) (by simp)
      · cases h
    · cases h
  · intro h
    have hb : ∀ {b : Bool} {w : String}, (b = true ↔ w ∈ os) → os.contains w = b := by
      intro b w h
      rw [Bool.eq_iff_iff, h]; simp
    cases h with
    | nonce => rfl
    | memoryCell => rfl
    | @ufCma _ mac verify _ b hn h1 h2 h3 =>
      have k : parseUfCma D [mac, verify] os = .ok (.ufCma mac verify b) := by
        simp only [parseUfCma, bind_ok, hm, hv, Out.ok.injEq, Crypto.ufCma.injEq]
        exact ⟨(), h1, (), h2, trivial, trivial, hb h3⟩
      simp only [List.mem_cons, List.not_mem_nil, or_false] at hn
      rcases hn with rfl | rfl | rfl | rfl <;> simpa [parseCrypto, parseEufCma] using k
    | @eufCma _ sign verify pk _ hn h1 h2 h3 =>
      have k : parseEufCma D [sign, verify, pk] os = .ok (.eufCma sign verify pk) := by
        simp only [parseEufCma, bind_ok, hm, hv, hp, Out.ok.injEq]
        exact ⟨(), h1, (), h2, (), h3, trivial⟩
      simp only [List.mem_cons, List.not_mem_nil, or_false] at hn
      rcases hn with rfl | rfl <;> simpa [parseCrypto] using k
    | @intCtxt _ enc dec fail xs _ hn h1 h2 h3 hx =>
      have k : parseIntCtxt D (enc :: dec :: fail :: xs) = .ok (.intCtxt enc dec fail) := by
        match xs, hx with
        | [], _ =>
          simp only [parseIntCtxt, bind_ok, hm, he, hf, Out.ok.injEq]
          exact ⟨(), h1, (), h2, (), h3, trivial⟩
        | [_], _ =>
          simp only [parseIntCtxt, bind_ok, hm, he, hf, Out.ok.injEq]
          exact ⟨(), h1, (), h2, (), h3, trivial⟩
      simp only [List.mem_cons, List.not_mem_nil, or_false] at hn
      rcases hn with rfl | rfl <;> simpa [parseCrypto] using k
    | @unfolding _ r d h1 h2 =>
      have : parseUnfolding [] os = .ok (.unfolding r d) := by
        simp only [parseUnfolding, if_true, hb h1, hb h2]
      simpa [parseCrypto] using this

/-- **C45 is false of unknown words**: they are accepted, and ignored. -/
theorem C45_unknown_accepted (D : DEnv) (w : String) : parseCrypto D ⟨"nonce", [], [w]⟩ = .ok .nonce := rfl

/-- **C45 is false of the recursive definition of `exec`**: the word `recursive` has no effect. -/
theorem C45_recursive_ignored (D : DEnv) : parseCrypto D ⟨"unfolding", [], ["recursive"]⟩ = .ok (.unfolding false false) := by
  rfl

/-! ## Names -/

theorem lookup_none {β : Type} {l : List (String × β)} {s : String} (h : s ∉ l.map (·.1)) : l.lookup s = none := by
  cases e : l.lookup s with
  | none => rfl
  | some b => exact absurd ((lookup_isSome l s).1 (by rw [e]; rfl)) h

theorem lookup_mem {β : Type} : ∀ {l : List (String × β)} {s : String} {b : β}, (l.map (·.1)).Nodup → (s, b) ∈ l → l.lookup s = some b
  | p :: l, s, b, hn, hm => by
    simp only [List.map_cons, List.nodup_cons] at hn
    rw [List.lookup_cons]
    rcases List.mem_cons.1 hm with rfl | hm
    · simp
    · have : (s == p.1) = false := by
        simp only [beq_eq_false_iff_ne, ne_eq]
        rintro rfl
        exact hn.1 (List.mem_map.2 ⟨_, hm, rfl⟩)
      rw [this]; exact lookup_mem hn.2 hm

theorem lookup_perm {β : Type} {l m : List (String × β)} (hn : (l.map (·.1)).Nodup) (hp : l.Perm m) (s : String) : l.lookup s = m.lookup s := by
  by_cases h : s ∈ l.map (·.1)
  · obtain ⟨⟨_, b⟩, hb, rfl⟩ := List.mem_map.1 h
    rw [lookup_mem hn hb, lookup_mem ((hp.map _).nodup_iff.1 hn) (hp.mem_iff.1 hb)]
  · rw [lookup_none h, lookup_none fun h' => h ((hp.map _).mem_iff.2 h')]

/-- The functions a file adds. -/
def newFunctions (D : DEnv) (l : List Decl) : List (String × Cache) :=
  l.filterMap (mkCache (withTypes D (typeNames l))) ++ (extraInit l).map fun n => (n, .step [] initDecl)

theorem fileEnv_functions (D : DEnv) (l : List Decl) : (fileEnv D l).functions = D.functions ++ newFunctions D l := by
  simp only [fileEnv, addDecls, (withTypes_rest _ _).1, newFunctions, List.append_assoc]

theorem newFunctions_names (D : DEnv) (l : List Decl) : (newFunctions D l).map (·.1) = objNames l ++ extraInit l := by
  have e : ∀ m : List Decl, (m.filterMap (mkCache (withTypes D (typeNames l)))).map (·.1) = objNames m := by
    intro m
    induction m with
    | nil => rfl
    | cons d m ih =>
      have e2 : objNames (d :: m) = objNames [d] ++ objNames m := by
        simp only [objNames, filterMap_cons', List.filterMap_nil, List.append_nil]
      rw [filterMap_cons', List.map_append, ih, e2]
      congr 1
      cases d <;> rfl
  simp [newFunctions, e, Function.comp_def]

theorem lookup_new {D : DEnv} {l : List Decl} (h : FileOk D l) {n : String} {c : Cache} (hm : (n, c) ∈ newFunctions D l) :
    (fileEnv D l).functions.lookup n = some c := by
  have hk : n ∈ objNames l ++ extraInit l := by rw [← newFunctions_names D]; exact List.mem_map.2 ⟨_, hm, rfl⟩
  rw [fileEnv_functions, lookup_append, lookup_none fun h' => h.objs.2 n hk (List.mem_append_left _ h')]
  simp only [Option.none_or]
  exact lookup_mem (by rw [newFunctions_names]; exact h.objs.1) hm

theorem lookup_old {D : DEnv} {l : List Decl} {n : String} (hn : n ∉ objNames l ++ extraInit l) :
    (fileEnv D l).functions.lookup n = D.functions.lookup n := by
  rw [fileEnv_functions, lookup_append, lookup_none (l := newFunctions D l) (by rw [newFunctions_names]; exact hn)]
  simp

/-- **C57 (names).** In an accepted file every name stands for its own declaration wherever in the file it is declared, and
what was known before keeps its meaning: functions with their sorts (`Bool` read as `Condition`), cells, steps, macros and types,
which are new and pairwise distinct. -/
theorem C57_names (D : DEnv) (l : List Decl) (h : FileOk D l) :
    (∀ n a o, Decl.func n a o ∈ l → (fileEnv D l).functions.lookup n =
      some (.func ⟨.sym n, .fixed (a.map fun s => boolToCond ((fileEnv D l).sortD s)) (boolToCond ((fileEnv D l).sortD o)),
        boolToCond ((fileEnv D l).sortD o) == .name⟩)) ∧
    (∀ n a s, Decl.cell n a s ∈ l → (fileEnv D l).functions.lookup n = some (.cell (a.map (fileEnv D l).sortD))) ∧
    (∀ d, Decl.step d ∈ l → (fileEnv D l).functions.lookup d.name =
      some (.step (d.params.map fun b => (b.1, (fileEnv D l).sortD b.2)) d)) ∧
    (∀ n ps b, Decl.mac n ps b ∈ l → (fileEnv D l).macros.lookup n = some ⟨ps.map fun b => (b.1, (fileEnv D l).sortD b.2), b⟩) ∧
    (∀ n x, D.functions.lookup n = some x → (fileEnv D l).functions.lookup n = some x) ∧
    (∀ n x, D.sorts.lookup n = some x → (fileEnv D l).sorts.lookup n = some x) ∧
    (∀ n, Decl.type n ∈ l → ∃ k, (fileEnv D l).sorts.lookup n = some (.user k) ∧ D.sorts.length ≤ k ∧
      ∀ m, Decl.type m ∈ l → (fileEnv D l).sorts.lookup m = some (.user k) → m = n) := by
  have hm : ∀ d ∈ l, ∀ p, mkCache (withTypes D (typeNames l)) d = some p → p ∈ newFunctions D l := fun d hd p hp =>
    List.mem_append_left _ (List.mem_filterMap.2 ⟨d, hd, hp⟩)
  refine ⟨fun n a o hd => lookup_new h (hm _ hd _ rfl), fun n a s hd => lookup_new h (hm _ hd _ rfl),
    fun d hd => lookup_new h (hm _ hd _ rfl), fun n ps b hd => ?_, fun n x hx => ?_, fun n x hx => ?_, fun n hn => ?_⟩
  · have hk : ∀ m : List Decl, (m.filterMap (mkMac (withTypes D (typeNames l)))).map (·.1) = macNames m := by
      intro m
      induction m with
      | nil => rfl
      | cons d m ih =>
        have e2 : macNames (d :: m) = macNames [d] ++ macNames m := by
          simp only [macNames, filterMap_cons', List.filterMap_nil, List.append_nil]
        rw [filterMap_cons', List.map_append, ih, e2]
        congr 1
        cases d <;> rfl
    have hin : n ∈ macNames l := List.mem_filterMap.2 ⟨_, hd, rfl⟩
    have e : (fileEnv D l).macros = D.macros ++ l.filterMap (mkMac (withTypes D (typeNames l))) := by
      simp only [fileEnv, addDecls, (withTypes_rest _ _).2]
    rw [e, lookup_append, lookup_none (h.macs.1.2 n hin)]
    simp only [Option.none_or]
    exact lookup_mem (by rw [hk]; exact h.macs.1.1) (List.mem_filterMap.2 ⟨_, hd, rfl⟩)
  · rw [fileEnv_functions, lookup_append, hx]; rfl
  · rw [fileEnv_sorts, withTypes_sorts, lookup_append, hx]; rfl
  · have key : ∀ m, Decl.type m ∈ l → ∀ x, (fileEnv D l).sorts.lookup m = some x →
        ∃ i : Nat, (typeNames l)[i]? = some m ∧ x = .user (D.sorts.length + i) := by
      intro m hm x hx
      have hin : m ∈ typeNames l := List.mem_filterMap.2 ⟨_, hm, rfl⟩
      rw [fileEnv_sorts, withTypes_lookup, lookup_none (h.types.2 m hin), Option.none_or] at hx
      obtain ⟨⟨y, i⟩, hy, e⟩ := List.mem_map.1 (lookup_map_mem hx)
      simp only [Prod.mk.injEq] at e
      obtain ⟨rfl, rfl⟩ := e
      exact ⟨i, List.mem_zipIdx_iff_getElem?.1 hy, rfl⟩
    have hin : n ∈ typeNames l := List.mem_filterMap.2 ⟨_, hn, rfl⟩
    have hk : ((fileEnv D l).sorts.lookup n).isSome = true := by
      rw [lookup_isSome, fileEnv_sorts, withTypes_names]; exact List.mem_append_right _ hin
    obtain ⟨x, hx⟩ := Option.isSome_iff_exists.1 hk
    obtain ⟨i, hi, rfl⟩ := key n hn x hx
    refine ⟨_, hx, Nat.le_add_right _ _, fun m hm hmx => ?_⟩
    obtain ⟨j, hj, e⟩ := key m hm _ hmx
    simp only [Srt.user.injEq, Nat.add_left_cancel_iff] at e
    subst e
    rw [hi] at hj
    exact (Option.some.inj hj).symm

/-! ## Order of declarations -/

theorem perm_filterMap_eq {α β : Type} (f : α → Option β) {l l' : List α} (h : l.Perm l') : (l.filterMap f).Perm (l'.filterMap f) := h.filterMap f

theorem extraInit_perm {l l' : List Decl} (h : l.Perm l') : extraInit l = extraInit l' := by
  have : "init" ∈ (stepDecls l).map (·.name) ↔ "init" ∈ (stepDecls l').map (·.name) := ((h.filterMap _).map _).mem_iff
  simp only [extraInit]
  by_cases h1 : "init" ∈ (stepDecls l).map (·.name)
  · rw [if_pos h1, if_pos (this.1 h1)]
  · rw [if_neg h1, if_neg fun h' => h1 (this.2 h')]

theorem Fresh.perm {b l l' : List String} (h : l.Perm l') (hf : Fresh b l) : Fresh b l' :=
  ⟨h.nodup_iff.1 hf.1, fun s hs => hf.2 s (h.mem_iff.2 hs)⟩

theorem FileOk.perm {D : DEnv} {l l' : List Decl} (h : l.Perm l') (hf : FileOk D l) : FileOk D l' where
  types := hf.types.perm (h.filterMap _)
  objs := by rw [← extraInit_perm h]; exact hf.objs.perm ((h.filterMap _).append_right _)
  macs := ⟨hf.macs.1.perm (h.filterMap _), fun m hm => hf.macs.2 m ((h.filterMap _).mem_iff.2 hm)⟩
  sorts d hd s hs := by
    have := hf.sorts d (h.mem_iff.2 hd) s hs
    rwa [show s ∈ typeNames l ↔ s ∈ typeNames l' from (h.filterMap _).mem_iff] at this
  outs n a o hd := hf.outs n a o (h.mem_iff.2 hd)
  init d hd := hf.init d ((h.filterMap _).mem_iff.2 hd)
  query := by rw [← hf.query]; exact (h.symm.filterMap _).length_eq

/-- **C57.** As symbols in terms: a declared function has its declared sorts, a cell takes its arguments and a time point and gives a message,
a step takes its parameters and gives a time point; each is the symbol of its own name. -/
theorem C57_signatures (D : DEnv) (l : List Decl) (h : FileOk D l) :
    (∀ n a o, Decl.func n a o ∈ l → ((fileEnv D l).toEnv.functions n).map (fun i => (i.sym, i.sig)) =
      some (.sym n, .fixed (a.map fun s => boolToCond ((fileEnv D l).sortD s)) (boolToCond ((fileEnv D l).sortD o)))) ∧
    (∀ n a s, Decl.cell n a s ∈ l → ((fileEnv D l).toEnv.functions n).map (fun i => (i.sym, i.sig)) =
      some (.sym n, .fixed (a.map (fileEnv D l).sortD ++ [.step]) .message)) ∧
    (∀ d, Decl.step d ∈ l → ((fileEnv D l).toEnv.functions d.name).map (fun i => (i.sym, i.sig)) =
      some (.sym d.name, .fixed (d.params.map fun b => (fileEnv D l).sortD b.2) .step)) := by
  obtain ⟨h1, h2, h3, -⟩ := C57_names D l h
  refine ⟨fun n a o hd => ?_, fun n a s hd => ?_, fun d hd => ?_⟩
  · simp only [DEnv.toEnv, h1 n a o hd, Option.map_some, Cache.info]
  · simp only [DEnv.toEnv, h2 n a s hd, Option.map_some, Cache.info]
  · simp only [DEnv.toEnv, h3 d hd, Option.map_some, Cache.info, List.map_map, Function.comp_def]

/-- **C57 (order of declarations).** Whether a file's declarations are accepted does not depend on their order; and as long
as the types come in the same order, neither does what any name stands for. -/
theorem C57_order (D : DEnv) (l l' : List Decl) (h : l.Perm l') :
    (FileOk D l ↔ FileOk D l') ∧
    (FileOk D l → typeNames l = typeNames l' → (fileEnv D l).toEnv = (fileEnv D l').toEnv ∧
      ∀ n, (fileEnv D l).functions.lookup n = (fileEnv D l').functions.lookup n) := by
  refine ⟨⟨fun hf => hf.perm h, fun hf => hf.perm h.symm⟩, fun hf ht => ?_⟩
  have hfn : ∀ n, (fileEnv D l).functions.lookup n = (fileEnv D l').functions.lookup n := by
    intro n
    rw [fileEnv_functions, fileEnv_functions, lookup_append, lookup_append]
    congr 1
    apply lookup_perm
    · rw [newFunctions_names]; exact hf.objs.1
    · simp only [newFunctions, ← ht, extraInit_perm h]
      exact (h.filterMap _).append_right _
  have hmac : ∀ n, (fileEnv D l).macros.lookup n = (fileEnv D l').macros.lookup n := by
    intro n
    have e : ∀ l, (fileEnv D l).macros = D.macros ++ l.filterMap (mkMac (withTypes D (typeNames l))) := by
      intro l; simp only [fileEnv, addDecls, (withTypes_rest _ _).2]
    have hk : ∀ (m : List Decl) D', (m.filterMap (mkMac D')).map (·.1) = macNames m := by
      intro m D'
      induction m with
      | nil => rfl
      | cons d m ih =>
        have e2 : macNames (d :: m) = macNames [d] ++ macNames m := by
          simp only [macNames, filterMap_cons', List.filterMap_nil, List.append_nil]
        rw [filterMap_cons', List.map_append, ih, e2]
        congr 1
        cases d <;> rfl
    rw [e, e, lookup_append, lookup_append]
    congr 1
    apply lookup_perm
    · rw [hk]; exact hf.macs.1.1
    · rw [← ht]; exact h.filterMap _
  refine ⟨?_, hfn⟩
  have hs : (fileEnv D l).sorts = (fileEnv D l').sorts := by rw [fileEnv_sorts, fileEnv_sorts, ht]
  have hsh : (fileEnv D l).shadowing = (fileEnv D l').shadowing := by
    simp only [fileEnv, addDecls, (withTypes_rest _ _).2]
  simp only [DEnv.toEnv, hfn, hmac, hs, hsh]

/-! ## Steps -/

theorem sortD_step {D : DEnv} {l : List Decl} (h : FileOk D l) {p : String × List (String × Srt) × StepDecl} (hp : p ∈ declaredSteps D l) :
    (fileEnv D l).functions.lookup p.1 = some (.step p.2.1 p.2.2) := by
  simp only [declaredSteps, List.mem_append, List.mem_map] at hp
  rcases hp with ⟨d, hd, rfl⟩ | ⟨n, hn, rfl⟩
  · obtain ⟨x, hx, e⟩ := List.mem_filterMap.1 hd
    cases x <;> simp only [Option.some.injEq, reduceCtorEq] at e
    subst e
    exact (C57_names D l h).2.2.1 _ hx
  · exact lookup_new h (List.mem_append_right _ (List.mem_map.2 ⟨n, hn, rfl⟩))

theorem forall₂_right {α β : Type} {R : α → β → Prop} {l : List α} {m : List β} (h : List.Forall₂ R l m) {b : β} (hb : b ∈ m) :
    ∃ a ∈ l, R a b := by
  induction h with
  | nil => cases hb
  | cons h1 _ ih =>
    rcases List.mem_cons.1 hb with rfl | hb
    · exact ⟨_, by simp, h1⟩
    · obtain ⟨a, ha, h⟩ := ih hb
      exact ⟨a, by simp [ha], h⟩

theorem names_elab {D : DEnv} {tbl} {ds : List (String × List (String × Srt) × StepDecl)} {zs : List (LStep × List LAssign)}
    (h : List.Forall₂ (StepElab D tbl) ds zs) : zs.map (·.1.name) = ds.map (·.1) := by
  induction h with
  | nil => rfl
  | cons h1 _ ih => rw [List.map_cons, List.map_cons, ih, h1.name]

/-- **C54 (steps).** The steps of the problem built from an accepted file, whatever the order in which the hash map is
visited: `init` comes first, there is exactly one step for each declared step, plus `init` if none is declared, and no
other; each has the declared parameters, and its message, condition and assignments mean what the texts of its
declaration mean and mention nothing but the parameters, the input at that step and the extra variables of an assignment.
The last part is for steps whose texts are clean. -/
theorem C54_steps_partial (ord : List (String × Cache) → List (String × Cache)) (hord : ∀ l, (ord l).Perm l) (D : DEnv) (hD : D.Base)
    (fuel : Nat) (ig : Bool) (l : List Decl) (P : LProblem) (h : load ord fuel ig D l = .ok P) :
    (P.steps.map (·.name)).Nodup ∧ P.steps.head?.map (·.name) = some "init" ∧
    (∀ n, n ∈ P.steps.map (·.name) ↔ n = "init" ∨ n ∈ (stepDecls l).map (·.name)) ∧
    ∃ as : String → List LAssign,
      (∀ s ∈ P.steps, ∃ ps d, (s.name, ps, d) ∈ declaredSteps D l ∧ s.vars = (numbered ps).map (·.2) ∧
        List.Forall₂ (AssignShape P.env s.name) d.assigns (as s.name) ∧
        (StepClean P.env ps d → StepOk P.env P.tbl ps d s (as s.name))) ∧
      ∃ ns : List String, ns.Perm (P.steps.map (·.name)) ∧ (∃ cs : List (String × List Srt), cs.Perm (declaredCells D l) ∧
        P.cells = cs.map fun c => ⟨c.1, c.2, (ns.flatMap as).filter fun a => a.cell == c.1⟩) := by
  have L := load_loaded hord hD h
  obtain ⟨zs, h1, ⟨ds, h2, h3⟩, cs, h4, h5⟩ := L.steps
  have hn : zs.map (·.1.name) = ds.map (·.1) := names_elab h3
  have hnd : (zs.map (·.1.name)).Nodup := by rw [hn]; exact (h2.map _).nodup_iff.2 (declared_nodup L.ok)
  have hmm : (zs.map (·.1)).map (·.name) = zs.map (·.1.name) := by simp
  have hperm : (P.steps.map (·.name)).Perm (zs.map (·.1.name)) := by rw [← hmm]; exact h1.map _
  let as : String → List LAssign := fun n => ((zs.map fun z => (z.1.name, z.2)).lookup n).getD []
  have has : ∀ z ∈ zs, as z.1.name = z.2 := by
    intro z hz
    have : (zs.map fun z => (z.1.name, z.2)).lookup z.1.name = some z.2 :=
      lookup_mem (by simpa [Function.comp_def] using hnd) (List.mem_map.2 ⟨z, hz, rfl⟩)
    simp only [as, this, Option.getD_some]
  refine ⟨hperm.nodup_iff.2 hnd, L.init, fun n => ?_, as, fun s hs => ?_, zs.map (·.1.name), hperm.symm, cs, h4, ?_⟩
  · rw [hperm.mem_iff, hn, (h2.map _).mem_iff, declaredSteps_names, extraInit, List.mem_append]
    split
    · rename_i h; simp only [List.not_mem_nil, or_false]
      constructor
      · exact .inr
      · rintro (rfl | h') <;> assumption
    · simp [or_comm]
  · obtain ⟨z, hz, rfl⟩ := List.mem_map.1 (h1.mem_iff.1 hs)
    obtain ⟨p, hp, he⟩ := forall₂_right h3 hz
    refine ⟨p.2.1, p.2.2, ?_, he.vars, ?_, fun hc => ?_⟩
    · rw [he.name]; exact h2.mem_iff.1 hp
    · rw [has z hz, he.name]; exact he.cells
    · rw [has z hz]; exact he.ok hc
  · rw [h5]
    have : zs.flatMap (·.2) = (zs.map (·.1.name)).flatMap as := by
      rw [List.flatMap_map]
      apply List.flatMap_congr
      intro z hz; exact (has z hz).symm
    rw [this]

/-- **C54 (`msg` and `cond`).** The message and the condition of a step of the problem are what `msg` and `cond` of that step,
applied to the step's variables, stand for in every text of the file. -/
theorem C54_msg_cond_partial (ord : List (String × Cache) → List (String × Cache)) (hord : ∀ l, (ord l).Perm l) (D : DEnv) (hD : D.Base)
    (fuel : Nat) (ig : Bool) (l : List Decl) (P : LProblem) (h : load ord fuel ig D l = .ok P) (s : LStep) (hs : s ∈ P.steps)
    (hc : ∀ p ∈ declaredSteps D l, p.1 = s.name → StepClean P.env p.2.1 p.2.2)
    (U : Type) (I : Sem U) (hI : I.Ok P.env.toEnv) (hR : I.Real P.tbl) (ρ : Valn U) :
    s.message.eval I.M ρ = I.msg s.name .sym (s.vars.map fun v => ρ v.id) ∧
    s.condition.eval I.M ρ = I.cnd s.name .sym (s.vars.map fun v => ρ v.id) := by
  obtain ⟨_, _, _, as, h4, _⟩ := C54_steps_partial ord hord D hD fuel ig l P h
  have L := load_loaded hord hD h
  obtain ⟨ps, d, hm, hv, _, hok⟩ := h4 s hs
  have hok := hok (hc _ hm rfl)
  have hl := sortD_step L.ok hm
  have e1 : P.env.toEnv.steps s.name = some ⟨ps, d.message, d.condition⟩ := by
    rw [L.env]; simp only [DEnv.toEnv, hl, Option.bind_some, Cache.stepInfo]
  have e2 : P.env.toEnv.functions s.name = some ⟨.sym s.name, .fixed (ps.map (·.2)) .step, false⟩ := by
    rw [L.env]; simp only [DEnv.toEnv, hl, Option.map_some, Cache.info]
  have e3 : (s.vars.map fun v => ρ v.id) = pvals ps ρ := by
    rw [hv, List.map_map, numbered_eq, ← pvals_eq]; rfl
  have e4 : (pvals ps ρ).length = ps.length := by simp [pvals]
  rw [e3, hI.msg _ _ _ e1 e2 _ _ e4, hI.cnd _ _ _ e1 e2 _ _ e4]
  have m := hok.message.sem U I hI hR ρ
  have c := hok.condition.sem U I hI hR ρ
  simp only [List.append_nil, List.length_nil, List.range_zero, List.map_nil] at m c
  exact ⟨m, c⟩

/-! ## Assertions, lemmas, query, orders -/

/-- **C24 (the problem).** A file is made into a problem only if it has exactly one query and no name is declared twice
(`FileOk`). The problem then has one formula per assertion and per lemma, in the order of the file, and the query, with the
meaning of the text if that is clean; all lemmas are dropped under `--ignore-lemmas`; and one order and one cryptographic
assumption per declaration, in the order of the file. -/
theorem C24_problem (ord : List (String × Cache) → List (String × Cache)) (hord : ∀ l, (ord l).Perm l) (D : DEnv) (hD : D.Base)
    (fuel : Nat) (ig : Bool) (l : List Decl) (P : LProblem) (h : load ord fuel ig D l = .ok P) :
    FileOk D l ∧ List.Forall₂ (AssertOk P.env.toEnv P.tbl) (assertionsOf l) P.assertions ∧
    List.Forall₂ (AssertOk P.env.toEnv P.tbl) (if ig then [] else lemmasOf l) P.lemmas ∧
    (∃ q, queriesOf l = [q] ∧ AssertOk P.env.toEnv P.tbl q P.query) ∧
    List.Forall₂ (OrderOk P.env P.tbl) (ordersOf l) P.orders ∧ List.Forall₂ (CryptoOk P.env) (cryptosOf l) P.crypto := by
  have L := load_loaded hord hD h
  exact ⟨L.ok, L.assertions, L.lemmas, L.query, L.orders, L.crypto.imp fun c y h => (C45_recognised_partial _ c y).1 h⟩

/-- **C55.** Each order declared in an accepted file becomes one order of the problem, in the order of the file, with the declared
quantifier and variables, the earlier step first, exclusion for `<>`, and the declared guard or `true`; the formulas mean
what the texts mean if those are clean. -/
theorem C55_orders_partial (ord : List (String × Cache) → List (String × Cache)) (hord : ∀ l, (ord l).Perm l) (D : DEnv) (hD : D.Base)
    (fuel : Nat) (ig : Bool) (l : List Decl) (P : LProblem) (h : load ord fuel ig D l = .ok P) (i : Nat) (o : OrderDecl)
    (ho : (ordersOf l)[i]? = some o) : ∃ x, P.orders[i]? = some x ∧ OrderOk P.env P.tbl o x := by
  have hf := (C24_problem ord hord D hD fuel ig l P h).2.2.2.2.1
  clear h
  generalize ordersOf l = os at *
  generalize P.orders = xs at *
  induction hf generalizing i with
  | nil => simp at ho
  | @cons a b os xs h1 _ ih =>
    cases i with
    | zero => simp only [List.getElem?_cons_zero, Option.some.injEq] at ho; subst ho; exact ⟨b, rfl, h1⟩
    | succ i => exact ih i (by simpa using ho)

/-! ## Panics -/

/-- The texts of a file come from the grammar. -/
structure FileGram (l : List Decl) : Prop where
  asserts : ∀ t, Decl.assertion t ∈ l ∨ Decl.lem t ∈ l ∨ Decl.query t ∈ l → Gram t
  macs : ∀ n ps b, Decl.mac n ps b ∈ l → Gram b
  steps : ∀ d, Decl.step d ∈ l → Gram d.message ∧ Gram d.condition ∧ ∀ a ∈ d.assigns, Gram a.term ∧ ∀ t ∈ a.args, Gram t
  orders : ∀ o, Decl.order o ∈ l → Gram o.t1 ∧ Gram o.t2 ∧ ∀ g, o.guard = some g → Gram g

/-- No function of a file returns bitstrings or elements of a declared type. -/
def OutsTA (D : DEnv) (l : List Decl) : Prop :=
  ∀ n a o, Decl.func n a o ∈ l → o ∉ typeNames l ∧ ∀ s, D.sorts.lookup o = some s → s ∈ [Srt.bool, .condition, .message, .step, .name]

theorem sort_safe (D : DEnv) (s : String) : D.sort s ≠ .panic := ofOption_ne_panic _

theorem sortList_safe (D : DEnv) : ∀ l, D.sortList l ≠ .panic
  | [] => by simp [DEnv.sortList]
  | s :: l => by
    rw [DEnv.sortList]
    exact bind_ne_panic (sort_safe D s) fun _ _ => bind_ne_panic (sortList_safe D l) fun _ _ => by simp

theorem declareSorts_safe : ∀ (l : List Decl) (D : DEnv), declareSorts l D ≠ .panic
  | [], D => by simp [declareSorts]
  | d :: l, D => by
    cases d
    case type s =>
      rw [declareSorts]
      split
      · simp
      · exact declareSorts_safe l _
    all_goals exact declareSorts_safe l D

theorem declareStep_safe (D : DEnv) (d : StepDecl) : declareStep D d ≠ .panic := by
  simp only [declareStep]
  split
  · simp
  · refine bind_ne_panic (sortList_safe D _) fun _ _ => ?_
    split <;> simp

theorem fetchOne_safe {F : Fetched} {d : Decl} (h : ∀ n a o, d = .func n a o → ∀ s, F.env.sorts.lookup o = some s →
    s ∈ [Srt.bool, .condition, .message, .step, .name]) : fetchOne F d ≠ .panic := by
  simp only [fetchOne]
  split
  · simp
  cases d with
  | func n a o =>
    refine bind_ne_panic ?_ fun _ _ => by simp
    simp only [declareFunc]
    split
    · simp
    refine bind_ne_panic (sort_safe _ _) fun s hs => bind_ne_panic (sortList_safe _ _) fun _ _ => ?_
    have hs' : F.env.sorts.lookup o = some s := by
      simp only [DEnv.sort] at hs
      cases e : F.env.sorts.lookup o with
      | none => rw [e] at hs; cases hs
      | some y => rw [e] at hs; simp only [Out.ofOption, Out.ok.injEq] at hs; rw [hs]
    have := h n a o rfl s hs'
    simp only [List.mem_cons, List.not_mem_nil, or_false] at this
    rcases this with rfl | rfl | rfl | rfl | rfl <;> simp [boolToCond, isTermAlgebra]
  | cell n a o =>
    refine bind_ne_panic ?_ fun _ _ => by simp
    simp only [declareCell]
    split
    · simp
    · exact bind_ne_panic (sortList_safe _ _) fun _ _ => by simp
  | step d => exact bind_ne_panic (declareStep_safe _ _) fun _ _ => by simp
  | mac n ps b =>
    refine bind_ne_panic ?_ fun _ _ => by simp
    simp only [declareLet]
    split
    · simp
    · exact bind_ne_panic (sortList_safe _ _) fun _ _ => by simp
  | query t => simp only; split <;> simp
  | type => simp
  | assertion => simp
  | lem => simp
  | order => simp
  | crypto => simp

theorem fetchOne_sorts {F F' : Fetched} {d : Decl} (h : fetchOne F d = .ok F') : F'.env.sorts = F.env.sorts := by
  simp only [fetchOne] at h
  split at h
  · cases h; rfl
  cases d with
  | func n a o =>
    simp only [bind_ok, Out.ok.injEq, declareFunc] at h
    obtain ⟨D, h, rfl⟩ := h
    split at h
    · cases h
    · simp only [bind_ok] at h
      obtain ⟨_, _, _, _, h⟩ := h
      split at h
      · cases h; rfl
      · split at h <;> cases h; rfl
  | cell n a o =>
    simp only [bind_ok, Out.ok.injEq, declareCell] at h
    obtain ⟨D, h, rfl⟩ := h
    split at h
    · cases h
    · simp only [bind_ok, Out.ok.injEq] at h
      obtain ⟨_, _, rfl⟩ := h; rfl
  | step d =>
    simp only [bind_ok, Out.ok.injEq, declareStep] at h
    obtain ⟨D, h, rfl⟩ := h
    split at h
    · cases h
    · simp only [bind_ok] at h
      obtain ⟨_, _, h⟩ := h
      split at h <;> cases h; rfl
  | mac n a o =>
    simp only [bind_ok, Out.ok.injEq, declareLet] at h
    obtain ⟨D, h, rfl⟩ := h
    split at h
    · cases h
    · simp only [bind_ok, Out.ok.injEq] at h
      obtain ⟨_, _, rfl⟩ := h; rfl
  | query t => simp only at h; split at h <;> cases h <;> rfl
  | type => cases h; rfl
  | assertion => cases h; rfl
  | lem => cases h; rfl
  | order => cases h; rfl
  | crypto => cases h; rfl

theorem fetchLoop_safe : ∀ {l : List Decl} {F : Fetched}, (∀ n a o, Decl.func n a o ∈ l → ∀ s, F.env.sorts.lookup o = some s →
    s ∈ [Srt.bool, .condition, .message, .step, .name]) → fetchLoop l F ≠ .panic
  | [], F, _ => by simp [fetchLoop]
  | d :: l, F, h => by
    rw [fetchLoop]
    refine bind_ne_panic (fetchOne_safe fun n a o e => h n a o (by simp [e])) fun F' hF => fetchLoop_safe fun n a o hd => ?_
    rw [fetchOne_sorts hF]
    exact h n a o (by simp [hd])

theorem fetchAll_safe {D : DEnv} {l : List Decl} (h : ∀ n a o, Decl.func n a o ∈ l → ∀ s, D.sorts.lookup o = some s →
    s ∈ [Srt.bool, .condition, .message, .step, .name]) : fetchAll l D ≠ .panic := by
  rw [fetchAll]
  refine bind_ne_panic (fetchLoop_safe h) fun F _ => ?_
  rw [fetchEnd]
  refine bind_ne_panic ?_ fun D' _ => ?_
  · split
    · simp
    · exact declareStep_safe _ _
  · rw [endQuery]
    split
    · simp
    · split <;> simp

theorem verifySign_safe (D : DEnv) (f : String) (a : List Srt) (o : Srt) : verifySign D f a o ≠ .panic := by
  rw [verifySign]
  refine bind_ne_panic (ofOption_ne_panic _) fun i _ => ?_
  split
  · simp
  · exact bind_ne_panic (ofOption_ne_panic _) fun _ _ => by simp

theorem parseUfCma_safe (D : DEnv) (fs os : List String) : parseUfCma D fs os ≠ .panic := by
  simp only [parseUfCma]
  split
  · exact bind_ne_panic (verifySign_safe _ _ _ _) fun _ _ => bind_ne_panic (verifySign_safe _ _ _ _) fun _ _ => by simp
  · simp

theorem parseCrypto_safe (D : DEnv) (c : CryptoDecl) : parseCrypto D c ≠ .panic := by
  simp only [parseCrypto]
  split
  · simp
  split
  · simp
  split
  · simp only [parseEufCma]
    split
    · exact parseUfCma_safe _ _ _
    · exact bind_ne_panic (verifySign_safe _ _ _ _) fun _ _ => bind_ne_panic (verifySign_safe _ _ _ _) fun _ _ =>
        bind_ne_panic (verifySign_safe _ _ _ _) fun _ _ => by simp
    · simp
  split
  · exact parseUfCma_safe _ _ _
  split
  · simp only [parseIntCtxt]
    split
    · exact bind_ne_panic (verifySign_safe _ _ _ _) fun _ _ => bind_ne_panic (verifySign_safe _ _ _ _) fun _ _ =>
        bind_ne_panic (verifySign_safe _ _ _ _) fun _ _ => by simp
    · exact bind_ne_panic (verifySign_safe _ _ _ _) fun _ _ => bind_ne_panic (verifySign_safe _ _ _ _) fun _ _ =>
        bind_ne_panic (verifySign_safe _ _ _ _) fun _ _ => by simp
    · simp
  split
  · simp only [parseUnfolding]; split <;> simp
  · simp

theorem parseCryptos_safe (D : DEnv) : ∀ l, parseCryptos D l ≠ .panic
  | [] => by simp [parseCryptos]
  | c :: l => by
    rw [parseCryptos]
    exact bind_ne_panic (parseCrypto_safe D c) fun _ _ => bind_ne_panic (parseCryptos_safe D l) fun _ _ => by simp

theorem parseAsserts_safe {E : Env} (hE : E.Decl) {fuel} : ∀ {l st}, (∀ t ∈ l, Gram t) → parseAsserts E fuel l st ≠ .panic
  | [], st, _ => by simp [parseAsserts]
  | t :: l, st, h => by
    rw [parseAsserts]
    exact bind_ne_panic (C52_no_panic E hE _ _ _ _ _ (h t (by simp))) fun _ _ =>
      bind_ne_panic (parseAsserts_safe hE fun t ht => h t (by simp [ht])) fun _ _ => by simp

theorem parseOrders_safe {D : DEnv} (hE : D.toEnv.Decl) {fuel} : ∀ {l st},
    (∀ o ∈ l, Gram o.t1 ∧ Gram o.t2 ∧ ∀ g, o.guard = some g → Gram g) → parseOrders D fuel l st ≠ .panic
  | [], st, _ => by simp [parseOrders]
  | o :: l, st, h => by
    rw [parseOrders]
    obtain ⟨h1, h2, h3⟩ := h o (by simp)
    refine bind_ne_panic ?_ fun _ _ => bind_ne_panic (parseOrders_safe hE fun o ho => h o (by simp [ho])) fun _ _ => by simp
    rw [parseOrderDecl]
    refine bind_ne_panic (sortList_safe _ _) fun _ _ => bind_ne_panic ?_ fun _ _ =>
      bind_ne_panic (C52_no_panic _ hE _ _ _ _ _ h1) fun _ _ => bind_ne_panic (C52_no_panic _ hE _ _ _ _ _ h2) fun _ _ => by simp
    cases hg : o.guard with
    | none => simp [parseGuard]
    | some g => exact C52_no_panic _ hE _ _ _ _ _ (h3 g hg)

theorem parseFresh_safe (D : DEnv) : ∀ (vs : List Bnd) (i : Nat) (st : St), parseFresh D i vs st ≠ .panic
  | [], i, st => by simp [parseFresh]
  | b :: l, i, st => by
    rw [parseFresh]
    refine bind_ne_panic (sort_safe _ _) fun s _ => ?_
    split
    · simp
    · exact bind_ne_panic (parseFresh_safe D l _ _) fun _ _ => by simp

theorem parseCellArgs_safe {E : Env} (hE : E.Decl) {fuel k σ} : ∀ {l : List (Tm × Srt)} {st}, (∀ p ∈ l, Gram p.1) →
    parseCellArgs E fuel k σ l st ≠ .panic
  | [], st, _ => by simp [parseCellArgs]
  | (t, s) :: l, st, h => by
    rw [parseCellArgs]
    exact bind_ne_panic (C52_no_panic E hE _ _ _ _ _ (h (t, s) (by simp))) fun _ _ =>
      bind_ne_panic (parseCellArgs_safe hE fun p hp => h p (by simp [hp])) fun _ _ => by simp

theorem parseAssigns_safe {D : DEnv} (hE : D.toEnv.Decl) {fuel name ps} : ∀ {l : List AssignDecl} {st},
    (∀ a ∈ l, Gram a.term ∧ ∀ t ∈ a.args, Gram t) → parseAssigns D fuel name ps l st ≠ .panic
  | [], st, _ => by simp [parseAssigns]
  | a :: l, st, h => by
    rw [parseAssigns]
    obtain ⟨h1, h2⟩ := h a (by simp)
    refine bind_ne_panic ?_ fun _ _ => bind_ne_panic (parseAssigns_safe hE fun a ha => h a (by simp [ha])) fun _ _ => by simp
    simp only [parseAssign]
    refine bind_ne_panic ?_ fun _ _ => bind_ne_panic (ofOption_ne_panic _) fun _ _ =>
      bind_ne_panic (parseCellArgs_safe hE fun p hp => h2 _ (List.of_mem_zip hp).1) fun _ _ =>
      bind_ne_panic (C52_no_panic _ hE _ _ _ _ _ h1) fun _ _ => by simp
    split
    · exact parseFresh_safe _ _ _ _
    · simp

theorem parseSteps_safe {D : DEnv} (hE : D.toEnv.Decl) {fuel} : ∀ {fs : List (String × Cache)} {st},
    (∀ n ps d, (n, Cache.step ps d) ∈ fs → Gram d.message ∧ Gram d.condition ∧ ∀ a ∈ d.assigns, Gram a.term ∧ ∀ t ∈ a.args, Gram t) →
    parseSteps D fuel fs st ≠ .panic
  | [], st, _ => by simp [parseSteps]
  | (n, .step ps d) :: fs, st, h => by
    rw [parseSteps]
    obtain ⟨h1, h2, h3⟩ := h n ps d (by simp)
    refine bind_ne_panic ?_ fun _ _ => bind_ne_panic (parseSteps_safe hE fun n ps d hd => h n ps d (by simp [hd])) fun _ _ => by simp
    simp only [parseStep]
    exact bind_ne_panic (C52_no_panic _ hE _ _ _ _ _ h1) fun _ _ => bind_ne_panic (C52_no_panic _ hE _ _ _ _ _ h2) fun _ _ =>
      bind_ne_panic (parseAssigns_safe hE h3) fun _ _ => by simp
  | (n, .func i) :: fs, st, h => parseSteps_safe hE (fs := fs) fun n ps d hd => h n ps d (by simp [hd])
  | (n, .cell a) :: fs, st, h => parseSteps_safe hE (fs := fs) fun n ps d hd => h n ps d (by simp [hd])

theorem initDecl_gram : Gram initDecl.message ∧ Gram initDecl.condition ∧ ∀ a ∈ initDecl.assigns, Gram a.term ∧ ∀ t ∈ a.args, Gram t :=
  ⟨.cvar, .cvar, nofun⟩

theorem fileEnv_steps {D : DEnv} (hD : D.Base) {l : List Decl} (hg : FileGram l) {n ps d} (h : (n, Cache.step ps d) ∈ (fileEnv D l).functions) :
    Gram d.message ∧ Gram d.condition ∧ ∀ a ∈ d.assigns, Gram a.term ∧ ∀ t ∈ a.args, Gram t := by
  rcases mem_fileEnv h with h | ⟨d', hd', h⟩ | h
  · obtain ⟨i, e, _⟩ := hD _ h; cases e
  · cases d' <;> simp only [mkCache, Option.some.injEq, Prod.mk.injEq, reduceCtorEq, and_false, Cache.step.injEq] at h
    obtain ⟨_, _, rfl⟩ := h
    exact hg.steps _ hd'
  · cases h; exact initDecl_gram

theorem fileEnv_decl {D : DEnv} (hD : D.Base) (hm : ∀ p ∈ D.macros, Gram p.2.body) {l : List Decl} (hg : FileGram l) :
    (fileEnv D l).toEnv.Decl where
  step s c i hs hf := by
    simp only [DEnv.toEnv] at hs hf
    cases e : (fileEnv D l).functions.lookup s with
    | none => rw [e] at hs; cases hs
    | some x =>
      rw [e] at hs hf
      cases x <;> simp only [Option.bind_some, Cache.stepInfo, reduceCtorEq, Option.some.injEq] at hs
      simp only [Option.map_some, Cache.info, Option.some.injEq] at hf
      subst hs hf
      exact ⟨rfl, rfl⟩
  texts s c hs := by
    simp only [DEnv.toEnv] at hs
    cases e : (fileEnv D l).functions.lookup s with
    | none => rw [e] at hs; cases hs
    | some x =>
      rw [e] at hs
      cases x <;> simp only [Option.bind_some, Cache.stepInfo, reduceCtorEq, Option.some.injEq] at hs
      subst hs
      have := fileEnv_steps hD hg (lookup_map_mem e)
      exact ⟨this.1, this.2.1⟩
  bodies m c hs := by
    simp only [DEnv.toEnv] at hs
    have e : (fileEnv D l).macros = D.macros ++ l.filterMap (mkMac (withTypes D (typeNames l))) := by
      simp only [fileEnv, addDecls, (withTypes_rest _ _).2]
    have hin := lookup_map_mem hs
    rw [e, List.mem_append, List.mem_filterMap] at hin
    rcases hin with h | ⟨d, hd, h⟩
    · exact hm _ h
    · cases d <;> simp only [mkMac, Option.some.injEq, Prod.mk.injEq, reduceCtorEq] at h
      obtain ⟨_, rfl⟩ := h
      exact hg.macs _ _ _ hd

/-- **C56.** Building the problem from a file of the grammar never panics, unless the file declares a function whose values
are bitstrings or elements of a declared type: in every other case the outcome is a problem, an error, or divergence (C53). -/
theorem C56_no_panic_partial (ord : List (String × Cache) → List (String × Cache)) (hord : ∀ l, (ord l).Perm l) (D : DEnv) (hD : D.Base)
    (hm : ∀ p ∈ D.macros, Gram p.2.body) (fuel : Nat) (ig : Bool) (l : List Decl) (hg : FileGram l) (ho : OutsTA D l) :
    load ord fuel ig D l ≠ .panic := by
  simp only [load]
  refine bind_ne_panic (declareSorts_safe _ _) fun D1 h1 => ?_
  have hD1 := (declareSorts_ok.1 h1).2
  refine bind_ne_panic (fetchAll_safe fun n a o hd s hs => ?_) fun Fq h2 => ?_
  · obtain ⟨h3, h4⟩ := ho n a o hd
    rw [hD1, withTypes_lookup] at hs
    apply h4 s
    rw [lookup_none (l := (typeNames l).zipIdx.map _), Option.or_none] at hs
    · exact hs
    · intro hm'
      rw [List.map_map] at hm'
      have : (fun x : String × Srt => x.1) ∘ (fun p : String × Nat => (p.1, Srt.user (D.sorts.length + p.2))) = Prod.fst := rfl
      rw [this, List.zipIdx_map_fst] at hm'
      exact h3 hm'
  obtain ⟨F, q⟩ := Fq
  have hacc : (declareSorts l D).bind (fetchAll l) = .ok (F, q) := bind_ok.2 ⟨D1, h1, h2⟩
  obtain ⟨hok, e1, e2, e3, e4, e5, e6, -⟩ := (C24_accepted_iff D l F q).1 hacc
  have hE : F.env.toEnv.Decl := by rw [e1]; exact fileEnv_decl hD hm hg
  have hNT : F.env.toEnv.NoTaq := by rw [e1]; exact fileEnv_notaq hD l
  refine bind_ne_panic (parseSteps_safe hE fun n ps d hd => ?_) fun ss h3 => ?_
  · simp only at hd
    rw [e1] at hd
    exact fileEnv_steps hD hg ((hord _).mem_iff.1 hd)
  refine bind_ne_panic (parseAsserts_safe hE fun t ht => ?_) fun as h4 => ?_
  · simp only [e2] at ht
    obtain ⟨d, hd, e⟩ := List.mem_filterMap.1 ht
    cases d <;> simp only [reduceCtorEq, Option.some.injEq] at e
    subst e; exact hg.asserts _ (.inl hd)
  refine bind_ne_panic (C52_no_panic _ hE _ _ _ _ _ ?_) fun qq h5 => ?_
  · have ht : q ∈ queriesOf l := by rw [e6]; simp
    obtain ⟨d, hd, e⟩ := List.mem_filterMap.1 ht
    cases d <;> simp only [reduceCtorEq, Option.some.injEq] at e
    subst e; exact hg.asserts _ (.inr (.inr hd))
  refine bind_ne_panic (parseCryptos_safe _ _) fun cs h6 => ?_
  refine bind_ne_panic ?_ fun ls h7 => ?_
  · split
    · simp
    · refine parseAsserts_safe hE fun t ht => ?_
      simp only [e3] at ht
      obtain ⟨d, hd, e⟩ := List.mem_filterMap.1 ht
      cases d <;> simp only [reduceCtorEq, Option.some.injEq] at e
      subst e; exact hg.asserts _ (.inr (.inl hd))
  refine bind_ne_panic (parseOrders_safe hE fun o ho => ?_) fun os h8 => ?_
  · simp only [e4] at ho
    obtain ⟨d, hd, e⟩ := List.mem_filterMap.1 ho
    cases d <;> simp only [reduceCtorEq, Option.some.injEq] at e
    subst e; exact hg.orders _ hd
  cases hsw : swapInit ss.1.1 with
  | some => simp
  | none =>
    exfalso
    apply swapInit_none hsw
    obtain ⟨-, zs, z1, z2, z3⟩ := parseSteps_good hNT h3
    have hn := names_elab z3
    have : ss.1.1.map (·.name) = zs.map (·.1.name) := by rw [z1]; simp
    rw [this, hn]
    have hp : (stepsOf (ord F.env.functions)).Perm (declaredSteps D l) := by
      rw [← stepsOf_fileEnv hD, e1]; exact ((hord _).filterMap _)
    exact (hp.map _).mem_iff.2 (init_declared D l)

/-! ## A file -/

/-- `type Idx`, `fun n(Idx): Name`, `fun h(Message, Message): Message`, `fun v(Message, Message, Message): Bool`,
`cell c(Idx): Message`, a step `s(i)` that outputs `h(in, n(i))` if `in = c(i)@pred(s(i))`… and assigns `c(i)`, an assertion, a
lemma, an order, two cryptographic assumptions and a query. The step is declared after its use. -/
def exStep : StepDecl := ⟨"s", [("i", "Idx")], .infx .eq [.cvar "in", .app "n" [.cvar "i"]],
  .app "h" [.cvar "in", .app "n" [.cvar "i"]], [⟨some [("j", "Idx")], "c", [.cvar "j"], .app "n" [.cvar "j"]⟩]⟩

def exFile : List Decl := [
  .query (.quant .all [("i", "Idx")] (.app "happens" [.app "s" [.cvar "i"]])),
  .type "Idx",
  .func "h" ["Message", "Message"] "Message",
  .func "v" ["Message", "Message", "Message"] "Bool",
  .func "n" ["Idx"] "Name",
  .cell "c" ["Idx"] "Message",
  .assertion (.app "happens" [.cvar "init"]),
  .lem (.app "happens" [.cvar "init"]),
  .order ⟨.all, [("i", "Idx")], .app "s" [.cvar "i"], .cvar "init", .gt, none⟩,
  .crypto ⟨"nonce", [], []⟩,
  .crypto ⟨"euf-cma", ["h", "v"], ["hmac"]⟩,
  .step exStep]

/-- Whether an outcome is a value. -/
def Out.isOk {α : Type} : Out α → Bool
  | .ok _ => true
  | _ => false

theorem Out.isOk_iff {α : Type} {x : Out α} : x.isOk = true ↔ ∃ a, x = .ok a := by
  cases x <;> simp [Out.isOk]

theorem exFile_loads : ∃ P, load id 6 false (env0 true) exFile = .ok P := Out.isOk_iff.1 (by decide +kernel)

/-- The declarations of the file as the elaborator sees them. -/
def exFE : DEnv := fileEnv (env0 true) exFile

theorem exFE_n (r : Realm) : funOf exFE.toEnv r "n" = some ⟨.sym "n", .fixed [.user 6] .name, true⟩ := by
  cases r <;> rfl
theorem exFE_h (r : Realm) : funOf exFE.toEnv r "h" = some ⟨.sym "h", .fixed [.message, .message] .message, false⟩ := by
  cases r <;> rfl

theorem ex_n {L : List String} {x : String} (hx : x ∈ L) : Clean exFE.toEnv .sym L [] (.app "n" [.cvar x]) := by
  refine .app (exFE_n _) rfl ?_ ?_
  · simp [RealmsOk, FSig.args, FSig.realm, realmOf, argRealm]
  · exact .cons (.cvarVar hx) .nil

theorem exStep_clean : StepClean exFE [("i", .user 6)] exStep where
  names := by decide
  message := by
    refine .app (exFE_h _) rfl ?_ ?_
    · simp [RealmsOk, FSig.args, FSig.realm, realmOf, argRealm]
    · exact .cons (.cvarVar (by simp [stepNames])) (.cons (ex_n (by simp [stepNames])) .nil)
  condition := .eqSym (.hardEq2 (.cons (.cvarVar (by simp [stepNames])) (.cons (ex_n (by simp [stepNames])) .nil)))
  args := by
    intro a ha t ht
    simp only [exStep, List.mem_singleton] at ha
    subst ha
    simp only [List.mem_singleton] at ht
    subst ht
    exact .cvarVar (by simp [stepNames, freshOf])
  terms := by
    intro a ha
    simp only [exStep, List.mem_singleton] at ha
    subst ha
    exact ex_n (by simp [stepNames, freshOf])

theorem exInit_clean : StepClean exFE [] initDecl where
  names := by decide
  message := .cvarFun (by simp [stepNames]) (by simp)
  condition := .cvarFun (by simp [stepNames]) (by simp)
  args := nofun
  terms := nofun

/-- The file satisfies what the theorems of this section ask for: it is accepted, its steps are clean, its texts come from
the grammar. -/
example : ∃ P, load id 6 false (env0 true) exFile = .ok P ∧ P.env = exFE ∧
    (∀ p ∈ declaredSteps (env0 true) exFile, StepClean P.env p.2.1 p.2.2) ∧ P.steps.length = 2 ∧ P.cells.length = 1 := by
  obtain ⟨P, hP⟩ := exFile_loads
  have L := load_loaded (fun _ => List.Perm.refl _) (env0_base _) hP
  refine ⟨P, hP, L.env, ?_, ?_, ?_⟩
  · rw [L.env]
    intro p hp
    have : declaredSteps (env0 true) exFile = [("s", [("i", .user 6)], exStep), ("init", [], initDecl)] := by rfl
    rw [this] at hp
    simp only [List.mem_cons, List.not_mem_nil, or_false] at hp
    rcases hp with rfl | rfl
    · exact exStep_clean
    · exact exInit_clean
  · obtain ⟨zs, h1, ⟨ds, h2, h3⟩, _⟩ := L.steps
    rw [h1.length_eq, List.length_map, ← h3.length_eq, h2.length_eq]
    rfl
  · obtain ⟨zs, _, _, cs, h4, h5⟩ := L.steps
    rw [h5, List.length_map, h4.length_eq]
    rfl

theorem exOrder_clean : OrderClean exFE ⟨.all, [("i", "Idx")], .app "s" [.cvar "i"], .cvar "init", .gt, none⟩ where
  names := by decide
  t1 := .app (i := ⟨.sym "s", .fixed [.user 6] .step, false⟩) rfl rfl (by simp [RealmsOk, FSig.args, FSig.realm, realmOf, argRealm])
    (.cons (.cvarVar (by simp)) .nil)
  t2 := .cvarFun (by simp) (by simp)
  guard := nofun

/-- An interpretation of the file. -/
noncomputable def exLI : Sem Nat :=
  let D (s : String) : List (String × Srt) := if s = "s" then [("i", .user 6)] else []
  { exI0 with
    msg := fun s r vs => den exFE.toEnv exI0 r (ext exI0.junk (D s ++ [("in", .message)]) (vs ++ [exI0.M.fn .input [exI0.M.fn (.sym s) vs]]) [])
      (if s = "s" then exStep.message else initDecl.message)
    cnd := fun s r vs => den exFE.toEnv exI0 r (ext exI0.junk (D s ++ [("in", .message)]) (vs ++ [exI0.M.fn .input [exI0.M.fn (.sym s) vs]]) [])
      (if s = "s" then exStep.condition else initDecl.condition) }

theorem exFE_steps {s : String} {c : StepInfo} {i : FInfo} (h : exFE.toEnv.steps s = some c) (hf : exFE.toEnv.functions s = some i) :
    (s = "s" ∧ c = ⟨[("i", .user 6)], exStep.message, exStep.condition⟩ ∧ i.sym = .sym "s") ∨
      (s = "init" ∧ c = ⟨[], initDecl.message, initDecl.condition⟩ ∧ i.sym = .sym "init") := by
  simp only [DEnv.toEnv] at h hf
  cases e : exFE.functions.lookup s with
  | none => rw [e] at h; cases h
  | some x =>
    rw [e] at h hf
    cases x <;> simp only [Option.bind_some, Cache.stepInfo, reduceCtorEq, Option.some.injEq] at h
    simp only [Option.map_some, Cache.info, Option.some.injEq] at hf
    subst h hf
    have hm := lookup_map_mem e
    have : ∀ n ps d, (n, Cache.step ps d) ∈ exFE.functions → (n, ps, d) ∈ stepsOf exFE.functions := by
      intro n ps d h
      exact List.mem_filterMap.2 ⟨_, h, rfl⟩
    have hm := this _ _ _ hm
    rw [exFE, stepsOf_fileEnv (env0_base _)] at hm
    have hd : declaredSteps (env0 true) exFile = [("s", [("i", .user 6)], exStep), ("init", [], initDecl)] := by rfl
    rw [hd] at hm
    simp only [List.mem_cons, List.not_mem_nil, or_false, Prod.mk.injEq] at hm
    rcases hm with ⟨rfl, rfl, rfl⟩ | ⟨rfl, rfl, rfl⟩
    · exact .inl ⟨rfl, rfl, rfl⟩
    · exact .inr ⟨rfl, rfl, rfl⟩

theorem exLI_ok : exLI.Ok exFE.toEnv where
  mac m c h := by cases h
  msg s c i h hf r vs _ := by
    obtain ⟨sym, sig, nm⟩ := i
    rcases exFE_steps h hf with ⟨rfl, rfl, e⟩ | ⟨rfl, rfl, e⟩ <;> simp only at e <;> subst e <;> cases r <;> rfl
  cnd s c i h hf r vs _ := by
    obtain ⟨sym, sig, nm⟩ := i
    rcases exFE_steps h hf with ⟨rfl, rfl, e⟩ | ⟨rfl, rfl, e⟩ <;> simp only at e <;> subst e <;> cases r <;> rfl

/-- The interpretation satisfies what the meaning theorems ask for. -/
example : ∃ P, load id 6 false (env0 true) exFile = .ok P ∧ exLI.Ok P.env.toEnv ∧ exLI.Real P.tbl := by
  have hR : ∀ tbl, tbl = [] → exLI.Real tbl := by
    rintro _ rfl n q h
    simp at h
  exact ⟨_, rfl, exLI_ok, hR _ rfl⟩

example : FileGram exFile where
  asserts t h := by
    simp only [exFile, List.mem_cons, List.not_mem_nil, or_false, reduceCtorEq, false_or, Decl.assertion.injEq, Decl.lem.injEq,
      Decl.query.injEq] at h
    rcases h with rfl | rfl | rfl
    · exact .app (by simpa using Gram.cvar)
    · exact .app (by simpa using Gram.cvar)
    · exact .quant (.app (by simpa using Gram.app (by simpa using Gram.cvar)))
  macs n ps b h := by simp [exFile] at h
  steps d h := by
    simp only [exFile, List.mem_cons, List.not_mem_nil, or_false, reduceCtorEq, false_or, Decl.step.injEq] at h
    subst h
    have hn : ∀ x, Gram (.app "n" [.cvar x]) := fun x => .app (by simpa using Gram.cvar)
    refine ⟨.app ?_, .infx (by simp) ?_, ?_⟩
    · intro a ha
      rcases List.mem_cons.1 ha with rfl | ha
      · exact .cvar
      · simp at ha; subst ha; exact hn _
    · intro a ha
      rcases List.mem_cons.1 ha with rfl | ha
      · exact .cvar
      · simp at ha; subst ha; exact hn _
    · intro a ha
      simp only [exStep, List.mem_singleton] at ha
      subst ha
      exact ⟨hn _, by simpa using Gram.cvar⟩
  orders o h := by
    simp only [exFile, List.mem_cons, List.not_mem_nil, or_false, reduceCtorEq, false_or, Decl.order.injEq] at h
    subst h
    exact ⟨.app (by simpa using Gram.cvar), .cvar, nofun⟩

example : OutsTA (env0 true) exFile := by
  intro n a o h
  simp only [exFile, List.mem_cons, List.not_mem_nil, or_false, reduceCtorEq, false_or, Decl.func.injEq] at h
  rcases h with ⟨_, _, rfl⟩ | ⟨_, _, rfl⟩ | ⟨_, _, rfl⟩ <;>
    exact ⟨by decide, fun s hs => by simp [env0, builtinSorts, List.lookup] at hs; subst hs; simp⟩

/-- **C56 is false of such functions**: `fun f(): Bitstring` panics. -/
theorem C56_bitstring_panics : load id 6 false (env0 true) [.func "f" [] "Bitstring", .query (.cvar "true")] = .panic := by rfl

/-- **C58.** Every assignment of the problem is in a declared step and to a declared cell, by a declaration of that step; it has
one argument for each parameter of the cell if the declaration gives at least that many. -/
theorem C58_arguments_partial (ord : List (String × Cache) → List (String × Cache)) (hord : ∀ l, (ord l).Perm l) (D : DEnv) (hD : D.Base)
    (fuel : Nat) (ig : Bool) (l : List Decl) (P : LProblem) (h : load ord fuel ig D l = .ok P) (c : LCell) (hc : c ∈ P.cells)
    (x : LAssign) (hx : x ∈ c.assigns) : x.cell = c.name ∧ ∃ ps d, (x.step, ps, d) ∈ declaredSteps D l ∧ ∃ a ∈ d.assigns,
      a.cell = c.name ∧ (c.args.length ≤ a.args.length → x.args.length = c.args.length) := by
  obtain ⟨_, _, _, as, h4, ns, h5, cs, h6, h7⟩ := C54_steps_partial ord hord D hD fuel ig l P h
  have L := load_loaded hord hD h
  rw [h7] at hc
  obtain ⟨k, hk, rfl⟩ := List.mem_map.1 hc
  simp only [List.mem_filter, beq_iff_eq, List.mem_flatMap] at hx
  obtain ⟨⟨n, hn, hx⟩, hxc⟩ := hx
  obtain ⟨s, hs, rfl⟩ := List.mem_map.1 (h5.mem_iff.1 hn)
  obtain ⟨ps, d, hm, _, hf, _⟩ := h4 s hs
  obtain ⟨a, ha, e1, e2, ss, hl, e3⟩ := forall₂_right hf hx
  refine ⟨hxc, ps, d, by rw [e1]; exact hm, a, ha, by rw [← e2]; exact hxc, fun hle => ?_⟩
  have hk' := h6.mem_iff.1 hk
  simp only [declaredCells, List.mem_filterMap] at hk'
  obtain ⟨dd, hdd, e⟩ := hk'
  cases dd <;> simp only [reduceCtorEq, Option.some.injEq] at e
  subst e
  have := (C57_names D l L.ok).2.1 _ _ _ hdd
  simp only at hxc hle ⊢
  rw [← e2, hxc, L.env, this] at hl
  simp only [Option.some.injEq, Cache.cell.injEq] at hl
  subst hl
  rw [e3]; exact Nat.min_eq_right hle

/-- **C58 is false otherwise.** The number of arguments of an assigned cell is not checked: an argument too many is dropped, and with one too few the
assignment has fewer arguments than the cell (C58). -/
theorem C58_arguments_unchecked :
    (∃ P, load id 6 false (env0 true) [.type "Idx", .cell "c" ["Idx"] "Message", .query (.cvar "true"),
      .step ⟨"s", [], .cvar "true", .cvar "empty", [⟨none, "c", [], .cvar "empty"⟩]⟩] = .ok P ∧
      ∃ c ∈ P.cells, ∃ a ∈ c.assigns, a.args.length < c.args.length) ∧
    (∃ P, load id 6 false (env0 true) [.type "Idx", .func "k" [] "Message", .cell "c" [] "Message", .query (.cvar "true"),
      .step ⟨"s", [], .cvar "true", .cvar "empty", [⟨none, "c", [.cvar "undeclared"], .cvar "empty"⟩]⟩] = .ok P) := by
  refine ⟨⟨_, rfl, ?_⟩, _, rfl⟩
  exact ⟨_, List.mem_cons_self .., _, List.mem_cons_self .., by decide⟩

end Prs
end CV
