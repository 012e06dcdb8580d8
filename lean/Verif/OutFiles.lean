import Verif.RunnerProps
import Mathlib.Data.List.Infix
set_option linter.unusedSimpArgs false
/-
Property C91: where the files are written. Models, relative to /repo/crates/cryptovampire/src, the
paths and files touched by `run_to_dir`, `run_to_file`, `save_to_file` and `run_from_ast` (lib.rs) and
by `run_from_json` (squirrel/mod.rs) when files are asked for (`to-file`).

The file system is a map from paths to directories and files. Permissions, symbolic links and full
disks are not modelled: an operation fails exactly when a directory is missing, or a file is where a
directory is needed, or a directory where a file is needed. The contents of a file is the problem it is
made of; what is printed for a problem is the subject of C15, C59 and C71.
-/
namespace CV
namespace Fls
variable {φ α : Type}

/-- A path, as the list of its components. -/
abbrev Path := List (List Char)

/-- What may be at a path. -/
inductive Node (φ : Type)
  | dir
  | file (p : Pbl φ)

/-- A file system. -/
abbrev FS (φ : Type) := Path → Option (Node φ)

/-- Whether there is a directory at the path. -/
def isDir (fs : FS φ) (p : Path) : Bool := match fs p with | some .dir => true | _ => false

/-- Whether there is a file at the path. -/
def isFile (fs : FS φ) (p : Path) : Bool := match fs p with | some (.file _) => true | _ => false

/-- Models `std::fs::create_dir_all`, called in lib.rs:131 and 156: every directory on the way is
created unless it exists; an error when there is a file on the way. -/
def mkdirAll (fs : FS φ) (p : Path) : Option (FS φ) :=
  if p.inits.any (isFile fs) then none
  else some fun q => if q <+: p then some .dir else fs q

/-- Models `save_to_file` (lib.rs:171-186): the file is created or overwritten (lib.rs:177-181); the
directory must exist and there must be no directory at the place of the file. -/
def save (fs : FS φ) (p : Path) (c : Pbl φ) : Option (FS φ) :=
  if p ≠ [] ∧ isDir fs p.dropLast = true ∧ isDir fs p = false then
    some fun q => if q = p then some (.file c) else fs q
  else none

/-- Models `format!("{i:}{SMT_FILE_EXTENSION}")` (lib.rs:136; smt/mod.rs:5). -/
def smtName (i : Nat) : List Char := Nat.toDigits 10 i ++ ".smt".toList

/-- Models `format!("{i}")` (squirrel/mod.rs:43). -/
def dirName (i : Nat) : List Char := Nat.toDigits 10 i

/-- Models `run_to_dir` (lib.rs:126-141) with the file system; `none` is an error. Simplification: when
a file cannot be written the files written before are lost in the model. -/
def runToDir (fuel : Nat) (fs : FS φ) (it : PblIter φ) (path : Path) : Option (FS φ) :=
  match mkdirAll fs path with
  | none => none
  | some fs =>
    match PblIter.mapCollect (ε := Unit) (U := Unit) (fun (s : Nat × FS φ) p =>
        match save s.2 (path ++ [smtName s.1]) p with
        | some fs' => (.ok (), p, (s.1 + 1, fs'))
        | none => (.error (), p, s)) fuel (0, fs) it with
    | some (.ok _, _, (_, fs')) => some fs'
    | _ => none

/-- Models `run_to_file` (lib.rs:150-168) with the file system: the directory of the file is made
unless something is at the path already (lib.rs:155-157), and there must be exactly one problem
(lib.rs:158-164). -/
def runToFile (fs : FS φ) (it : PblIter φ) (path : Path) : Option (FS φ) :=
  let dirs := if (fs path).isSome then some fs
    else if path = [] then none else mkdirAll fs path.dropLast
  match dirs with
  | none => none
  | some fs =>
    if it.assertOne then
      match it.next with
      | (true, it') => save fs path it'.pbl
      | (false, _) => none
    else none

/-- Models `run_from_ast` (lib.rs:52-102) when files are asked for (lib.rs:75-81); `parse` is
`parse_pbl_from_ast` (lib.rs:61-69). The fuel suffices for every problem (`C13_run_to_dir`). -/
def runFromAst (parse : α → Option (Pbl φ)) (tru : φ) (lemmas : Bool) (fs : FS φ) (loc : Path) (a : α) :
    Option (FS φ) :=
  match parse a with
  | none => none
  | some p =>
    if lemmas then runToDir (p.lemmas.length + 2) fs (PblIter.new tru p lemmas) loc
    else runToFile fs (PblIter.new tru p lemmas) loc

/-- Models the loop of `run_from_json` (squirrel/mod.rs:26-46) when files are asked for: before the
`i`-th problem the location of the arguments is itself replaced by `location.join(i)`
(squirrel/mod.rs:41-44). -/
def runJsonFrom (parse : α → Option (Pbl φ)) (tru : φ) (lemmas : Bool) :
    Nat → FS φ → Path → List α → Option (FS φ)
  | _, fs, _, [] => some fs
  | i, fs, loc, a :: as =>
    match runFromAst parse tru lemmas fs (loc ++ [dirName i]) a with
    | none => none
    | some fs' => runJsonFrom parse tru lemmas (i + 1) fs' (loc ++ [dirName i]) as

/-- Models `run_from_json` (squirrel/mod.rs:14-47) after the conversion. -/
def runJson (parse : α → Option (Pbl φ)) (tru : φ) (lemmas : Bool) (fs : FS φ) (loc : Path)
    (as : List α) : Option (FS φ) :=
  runJsonFrom parse tru lemmas 0 fs loc as

/-! ### Specification -/

/-- SPEC: the place of the `i`-th problem: `loc/0/1/…/i`. -/
def place (loc : Path) : Nat → Path
  | 0 => loc ++ ["0".toList]
  | i + 1 => place loc i ++ [Nat.toDigits 10 (i + 1)]

/-- SPEC: nothing is strictly below the location, and no file is at the location or above it. -/
def Free (fs : FS φ) (loc : Path) : Prop :=
  (∀ c q, fs (loc ++ c :: q) = none) ∧ ∀ q, q <+: loc → isFile fs q = false

/-- SPEC: the files of a problem with lemmas are in directory `d`: the `k`-th file holds the `k`-th
obligation. -/
def HoldsAll (fs : FS φ) (tru : φ) (d : Path) (p : Pbl φ) : Prop :=
  ∀ k q, (p.lemmas ++ [p.query])[k]? = some q → ∃ p', fs (d ++ [smtName k]) = some (.file p') ∧
    IsObligation (p.assertions ++ tru :: p.lemmas.take k) q p'

/-! ### Names -/

theorem dirName_inj {i j : Nat} (h : dirName i = dirName j) : i = j := by
  rw [← Nat.ofDigitChars_ten_toDigits (n := i), show Nat.toDigits 10 i = Nat.toDigits 10 j from h,
    Nat.ofDigitChars_ten_toDigits]

theorem smtName_inj {i j : Nat} (h : smtName i = smtName j) : i = j :=
  dirName_inj (List.append_cancel_right h)

theorem smtName_ne_dirName (i j : Nat) : smtName i ≠ dirName j := by
  intro h
  have hm : '.' ∈ dirName j := by rw [← h]; simp [smtName]
  have : '.'.isDigit = true := Nat.isDigit_of_mem_toDigits (by decide) (by decide) hm
  revert this; decide

/-! ### The operations -/

theorem mkdirAll_some {fs : FS φ} {p : Path} (h : ∀ q, q <+: p → isFile fs q = false) :
    mkdirAll fs p = some fun q => if q <+: p then some .dir else fs q := by
  have : p.inits.any (isFile fs) = false := by
    rw [List.any_eq_false]; intro q hq; rw [h q (by simpa using hq)]; simp
  rw [mkdirAll, this]; simp

theorem mkdirAll_none {fs : FS φ} {p q : Path} (h : q <+: p) (hf : isFile fs q = true) :
    mkdirAll fs p = none := by
  have : p.inits.any (isFile fs) = true := by
    rw [List.any_eq_true]; exact ⟨q, by simpa using h, hf⟩
  rw [mkdirAll, this]; simp

theorem save_some {fs : FS φ} {d : Path} {c : List Char} {p : Pbl φ} (h1 : isDir fs d = true)
    (h2 : isDir fs (d ++ [c]) = false) :
    save fs (d ++ [c]) p = some fun q => if q = d ++ [c] then some (.file p) else fs q := by
  simp [save, h1, h2]

/-- What writing the problems of a sequence into a directory does. -/
theorem dir_loop (d : Path) : ∀ (rem : List φ) (fuel i : Nat) (fs : FS φ) (it : PblIter φ),
    it.state = .withLemma → it.pbl.lemmas = rem → rem.length + 1 ≤ fuel → isDir fs d = true →
    (∀ k, isDir fs (d ++ [smtName k]) = false) →
    ∃ l r fs', PblIter.mapCollect (ε := Unit) (U := Unit) (fun (s : Nat × FS φ) p =>
        match save s.2 (d ++ [smtName s.1]) p with
        | some fs' => (.ok (), p, (s.1 + 1, fs'))
        | none => (.error (), p, s)) fuel (i, fs) it = some (.ok l, r, (i + rem.length, fs')) ∧
      (∀ k q, rem[k]? = some q → ∃ p', fs' (d ++ [smtName (i + k)]) = some (.file p') ∧
        IsObligation (it.pbl.assertions ++ (it.pbl.query :: rem).take (k + 1)) q p') ∧
      ∀ q, (∀ k, k < rem.length → q ≠ d ++ [smtName (i + k)]) → fs' q = fs q := by
  intro rem
  induction rem with
  | nil =>
    intro fuel i fs it hs hl hfu hd hn
    obtain ⟨n, rfl⟩ : ∃ n, fuel = n + 1 := ⟨fuel - 1, by simp at hfu; omega⟩
    exact ⟨[], { it with state := .done }, fs, by simp [PblIter.mapCollect, PblIter.next, hs, hl],
      by simp, fun _ _ => rfl⟩
  | cons q0 rem ih =>
    intro fuel i fs it hs hl hfu hd hn
    obtain ⟨n, rfl⟩ : ∃ n, fuel = n + 1 := ⟨fuel - 1, by simp at hfu; omega⟩
    let it1 : PblIter φ := { it with
      pbl := { it.pbl with
        query := q0, lemmas := rem, assertions := it.pbl.assertions ++ [it.pbl.query] } }
    have hnext : PblIter.next it = (true, it1) := by simp [PblIter.next, hs, hl, it1]
    have hsv := save_some (p := it1.pbl) hd (hn i)
    let fs1 : FS φ := fun q => if q = d ++ [smtName i] then some (.file it1.pbl) else fs q
    have hd1 : isDir fs1 d = true := by
      simpa [isDir, fs1] using hd
    have hn1 : ∀ k, isDir fs1 (d ++ [smtName k]) = false := by
      intro k
      have := hn k
      simp only [isDir, fs1] at this ⊢
      split
      · rename_i h; split at h
        · cases h
        · rw [h] at this; exact this
      · rfl
    obtain ⟨l, r, fs', h1, h2, h3⟩ := ih n (i + 1) fs1 it1 hs rfl (by simp at hfu; omega) hd1 hn1
    refine ⟨() :: l, r, fs', ?_, ?_, ?_⟩
    · simp only [PblIter.mapCollect, hnext]
      simp only [hsv]
      rw [show ({ it1 with pbl := it1.pbl } : PblIter φ) = it1 from rfl, h1]
      simp; omega
    · intro k q hq
      cases k with
      | zero =>
        simp at hq; subst hq
        refine ⟨it1.pbl, ?_, by simp [IsObligation, it1]⟩
        rw [h3]
        · simp [fs1]
        · intro k _ he
          have := smtName_inj (List.cons.inj (List.append_cancel_left he)).1
          omega
      | succ k =>
        simp at hq
        obtain ⟨p', h4, h5⟩ := h2 k q hq
        refine ⟨p', by rw [← h4]; congr 4; omega, ?_⟩
        simp only [IsObligation] at h5 ⊢
        refine ⟨?_, h5.2⟩
        rw [h5.1]; simp [it1]
    · intro q hq
      rw [h3 q]
      · have := hq 0 (by simp); simp only [Nat.add_zero] at this; simp [fs1, this]
      · intro k hk
        have := hq (k + 1) (by simpa using hk)
        rwa [show i + 1 + k = i + (k + 1) by omega]

/-- What the run of one file with lemmas does. -/
theorem runToDir_spec (tru : φ) (p : Pbl φ) (fs : FS φ) (d : Path) (hf : Free fs d) :
    ∃ fs', runToDir (p.lemmas.length + 2) fs (PblIter.new tru p true) d = some fs' ∧
      HoldsAll fs' tru d p ∧
      ∀ q, (∀ k, k ≤ p.lemmas.length → q ≠ d ++ [smtName k]) →
        fs' q = if q <+: d then some .dir else fs q := by
  have hm := mkdirAll_some hf.2
  let fs1 : FS φ := fun q => if q <+: d then some .dir else fs q
  have hd1 : isDir fs1 d = true := by simp [isDir, fs1]
  have hn1 : ∀ k, isDir fs1 (d ++ [smtName k]) = false := by
    intro k
    have hp : ¬ d ++ [smtName k] <+: d := fun h => by have := h.length_le; simp at this; try omega
    simp [isDir, fs1, hp, hf.1]
  obtain ⟨l, r, fs', h1, h2, h3⟩ := dir_loop d (p.lemmas ++ [p.query]) (p.lemmas.length + 2) 0 fs1
    (PblIter.new tru p true) (by simp [PblIter.new]) (by simp [PblIter.new]) (by simp) hd1 hn1
  refine ⟨fs', ?_, ?_, ?_⟩
  · rw [runToDir, hm]; simp only []; rw [h1]
  · intro k q hq
    obtain ⟨p', h4, h5⟩ := h2 k q hq
    refine ⟨p', by simpa using h4, ?_⟩
    have hk : k ≤ p.lemmas.length := by
      have := (List.getElem?_eq_some_iff.1 hq).1
      simp at this; omega
    have hT : (tru :: (p.lemmas ++ [p.query])).take (k + 1) = tru :: p.lemmas.take k := by
      simp [List.take_append, Nat.sub_eq_zero_of_le hk]
    have hq' : (PblIter.new tru p true).pbl.query = tru := by simp [PblIter.new]
    rw [hq', hT] at h5
    simpa [PblIter.new] using h5
  · intro q hq
    rw [h3 q]
    intro k hk
    rw [Nat.zero_add]
    exact hq k (by simp at hk; omega)

/-- Without lemmas what is written is a file at the location. -/
theorem runFromAst_file (parse : α → Option (Pbl φ)) (tru : φ) (fs : FS φ) (path : Path) (c : α)
    (fs' : FS φ) (h : runFromAst parse tru false fs path c = some fs') : isFile fs' path = true := by
  unfold runFromAst at h
  split at h
  · cases h
  · simp only [Bool.false_eq_true, if_false, runToFile] at h
    split at h
    · cases h
    · simp only [PblIter.new, PblIter.assertOne, PblIter.next, Bool.false_eq_true, if_false,
        beq_self_eq_true, if_true] at h
      unfold save at h
      split at h
      · cases h; simp [isFile]
      · cases h

/-- Nothing can be written below a file. -/
theorem below_file (parse : α → Option (Pbl φ)) (tru : φ) (lemmas : Bool) (fs : FS φ) (d : Path)
    (c : List Char) (a : α) (hf : isFile fs d = true) :
    runFromAst parse tru lemmas fs (d ++ [c]) a = none := by
  have hd : isDir fs d = false := by
    simp only [isFile] at hf; split at hf
    · rename_i h; simp [isDir, h]
    · cases hf
  have hl : (d ++ [c]).dropLast = d := by simp
  unfold runFromAst
  split
  · rfl
  · cases lemmas
    · simp only [Bool.false_eq_true, if_false, runToFile]
      by_cases he : (fs (d ++ [c])).isSome
      · simp only [he, if_true, PblIter.new, PblIter.assertOne, PblIter.next, Bool.false_eq_true,
          if_false, beq_self_eq_true, save, hl, hd]
        simp
      · have hne : d ++ [c] ≠ [] := by simp
        rw [hl, mkdirAll_none List.prefix_rfl hf, if_neg he, if_neg hne]
    · simp only [if_true, runToDir]
      rw [mkdirAll_none (List.prefix_append d [c]) hf]

/-! ### Properties -/

/-- C91 (one file, no lemmas): when nothing is at the location and no file is on the way to it, the
problem is written to the location, directories are made for it, and nothing else changes. -/
theorem C91_file (parse : α → Option (Pbl φ)) (tru : φ) (a : α) (p : Pbl φ) (hp : parse a = some p)
    (fs : FS φ) (d : Path) (c : List Char) (hn : fs (d ++ [c]) = none)
    (hd : ∀ q, q <+: d → isFile fs q = false) :
    runFromAst parse tru false fs (d ++ [c]) a = some fun q =>
      if q = d ++ [c] then some (.file p) else if q <+: d then some .dir else fs q := by
  have hl : (d ++ [c]).dropLast = d := by simp
  have hpre : ¬ d ++ [c] <+: d := fun h => by have := h.length_le; simp at this; try omega
  simp only [runFromAst, hp, runToFile, hn, hl, mkdirAll_some hd]
  simp [PblIter.new, PblIter.assertOne, PblIter.next, save, isDir, hpre, hn]

/-- C91 (one file, lemmas): when nothing is below the location and no file is on the way to it, the
`k`-th obligation is written to the file `k.smt` of the location, and nothing else changes but the
directories made for it. -/
theorem C91_dir (parse : α → Option (Pbl φ)) (tru : φ) (a : α) (p : Pbl φ) (hp : parse a = some p)
    (fs : FS φ) (d : Path) (hf : Free fs d) :
    ∃ fs', runFromAst parse tru true fs d a = some fs' ∧ HoldsAll fs' tru d p ∧
      ∀ q, (∀ k, k ≤ p.lemmas.length → q ≠ d ++ [smtName k]) →
        fs' q = if q <+: d then some .dir else fs q := by
  simp only [runFromAst, hp, if_true]
  exact runToDir_spec tru p fs d hf

/-- The path of the `j`-th place after the `i`-th. -/
def placeFrom (loc : Path) (i : Nat) : Nat → Path
  | 0 => loc ++ [dirName i]
  | j + 1 => placeFrom loc i j ++ [dirName (i + j + 1)]

theorem placeFrom_shift (loc : Path) (i : Nat) : ∀ j,
    placeFrom (loc ++ [dirName i]) (i + 1) j = placeFrom loc i (j + 1)
  | 0 => rfl
  | j + 1 => by
    show placeFrom (loc ++ [dirName i]) (i + 1) j ++ [dirName (i + 1 + j + 1)] = _
    rw [placeFrom_shift loc i j]
    show _ = placeFrom loc i (j + 1) ++ [dirName (i + (j + 1) + 1)]
    rw [show i + 1 + j + 1 = i + (j + 1) + 1 by omega]

theorem placeFrom_zero (loc : Path) : ∀ j, placeFrom loc 0 j = place loc j
  | 0 => rfl
  | j + 1 => by
    show placeFrom loc 0 j ++ [dirName (0 + j + 1)] = place loc j ++ [Nat.toDigits 10 (j + 1)]
    rw [placeFrom_zero loc j, Nat.zero_add]; rfl

theorem placeFrom_length (loc : Path) (i : Nat) : ∀ j, (placeFrom loc i j).length = loc.length + j + 1
  | 0 => by simp [placeFrom]
  | j + 1 => by simp [placeFrom, placeFrom_length loc i j]; omega

theorem placeFrom_pre (loc : Path) (i : Nat) : ∀ j, loc ++ [dirName i] <+: placeFrom loc i j
  | 0 => List.prefix_rfl
  | j + 1 => (placeFrom_pre loc i j).trans (List.prefix_append ..)

theorem json_dirs (parse : α → Option (Pbl φ)) (tru : φ) : ∀ (as : List α) (i : Nat) (fs : FS φ)
    (loc : Path) (_ : ∀ a ∈ as, (parse a).isSome) (_ : ∀ c q, c = dirName i → fs (loc ++ c :: q) = none)
    (_ : ∀ q, q <+: loc → isFile fs q = false),
    ∃ fs', runJsonFrom parse tru true i fs loc as = some fs' ∧
      (∀ j a p, as[j]? = some a → parse a = some p → HoldsAll fs' tru (placeFrom loc i j) p) ∧
      ∀ q, (¬ loc ++ [dirName i] <+: q) → fs' q = if as ≠ [] ∧ q <+: loc then some .dir else fs q := by
  intro as
  induction as with
  | nil => intro i fs loc _ _ _; exact ⟨fs, rfl, by simp, by simp⟩
  | cons a as ih =>
    intro i fs loc hp hn hd
    obtain ⟨p, hpa⟩ := Option.isSome_iff_exists.1 (hp a (by simp))
    have hfree : Free fs (loc ++ [dirName i]) := by
      refine ⟨fun c q => by rw [List.append_assoc]; exact hn _ _ rfl, ?_⟩
      intro q hq
      rcases List.prefix_concat_iff.1 hq with rfl | h
      · have := hn (dirName i) [] rfl
        simp [isFile, this]
      · exact hd q h
    obtain ⟨fs1, h1, h2, h3⟩ := C91_dir parse tru a p hpa fs (loc ++ [dirName i]) hfree
    have hnew : ∀ c q, c = dirName (i + 1) → fs1 (loc ++ [dirName i] ++ c :: q) = none := by
      intro c q hc
      rw [h3]
      · have hl : ¬ loc ++ [dirName i] ++ c :: q <+: loc ++ [dirName i] := fun h => by
          have := h.length_le; simp at this; try omega
        rw [if_neg hl]; exact hfree.1 _ _
      · intro k _ he
        have he := (List.cons.inj (List.append_cancel_left he)).1
        exact smtName_ne_dirName k (i + 1) (by rw [← he, hc])
    have hdir : ∀ q, q <+: loc ++ [dirName i] → isFile fs1 q = false := by
      intro q hq
      have : fs1 q = some .dir := by
        rw [h3, if_pos hq]
        rintro k _ rfl
        have := hq.length_le; simp at this
      simp [isFile, this]
    obtain ⟨fs', h4, h5, h6⟩ := ih (i + 1) fs1 (loc ++ [dirName i]) (fun b hb => hp b (by simp [hb]))
      hnew hdir
    have hkeep : ∀ k, fs' (loc ++ [dirName i] ++ [smtName k]) =
        fs1 (loc ++ [dirName i] ++ [smtName k]) := by
      intro k
      rw [h6, if_neg]
      · rintro ⟨_, h⟩; have := h.length_le; simp at this; try omega
      · intro h
        have := List.prefix_append_right_inj (loc ++ [dirName i]) |>.1 h
        simp at this
        exact smtName_ne_dirName k (i + 1) this.symm
    refine ⟨fs', by simp only [runJsonFrom, h1]; exact h4, ?_, ?_⟩
    · intro j b pb hj hb
      cases j with
      | zero =>
        simp at hj; subst hj
        rw [hpa] at hb; cases hb
        intro k q hk
        obtain ⟨p', e1, e2⟩ := h2 k q hk
        exact ⟨p', by rw [show placeFrom loc i 0 = loc ++ [dirName i] from rfl, hkeep]; exact e1, e2⟩
      | succ j =>
        rw [← placeFrom_shift]
        exact h5 j b pb (by simpa using hj) hb
    · intro q hq
      have hq2 : ¬ loc ++ [dirName i] ++ [dirName (i + 1)] <+: q := fun h =>
        hq ((List.prefix_append _ _).trans h)
      have hne : ∀ k, k ≤ p.lemmas.length → q ≠ loc ++ [dirName i] ++ [smtName k] := by
        rintro k _ rfl; exact hq (List.prefix_append ..)
      have hiff : q <+: loc ++ [dirName i] ↔ q <+: loc := by
        rw [List.prefix_concat_iff]
        exact ⟨fun h => h.resolve_left (by rintro rfl; exact hq List.prefix_rfl), Or.inr⟩
      rw [h6 q hq2, h3 q hne]
      by_cases hl : q <+: loc
      · simp [hiff, hl]
      · simp [hiff, hl]

/-- C91 (Squirrel, lemmas): when nothing is below the location and no file is on the way to it, all the
problems of a Squirrel file that are accepted are written. The obligations of the `j`-th are in the
directory `loc/0/1/…/j`, none overwrites another, and nothing outside of `loc/0` changes but the
directories on the way to it. -/
theorem C91_squirrel_lemmas_partial (parse : α → Option (Pbl φ)) (tru : φ) (as : List α)
    (hp : ∀ a ∈ as, (parse a).isSome) (fs : FS φ) (loc : Path) (hf : Free fs loc) :
    ∃ fs', runJson parse tru true fs loc as = some fs' ∧
      (∀ j a p, as[j]? = some a → parse a = some p → HoldsAll fs' tru (place loc j) p) ∧
      ∀ q, (¬ loc ++ ["0".toList] <+: q) → fs' q = if as ≠ [] ∧ q <+: loc then some .dir else fs q := by
  obtain ⟨fs', h1, h2, h3⟩ := json_dirs parse tru as 0 fs loc hp (fun c q _ => hf.1 c q) hf.2
  exact ⟨fs', h1, fun j a p hj hpa => placeFrom_zero loc j ▸ h2 j a p hj hpa, h3⟩

/-- The problems are not written side by side: nothing is ever written to `loc/1`, nor below, whatever
the problems. -/
theorem C91_side_by_side_counterexample (parse : α → Option (Pbl φ)) (tru : φ) (as : List α)
    (hp : ∀ a ∈ as, (parse a).isSome) (fs : FS φ) (loc : Path) (hf : Free fs loc) (j : Nat) (hj : j ≠ 0)
    (q : Path) :
    ∃ fs', runJson parse tru true fs loc as = some fs' ∧ fs' (loc ++ dirName j :: q) = none := by
  obtain ⟨fs', h1, _, h3⟩ := C91_squirrel_lemmas_partial parse tru as hp fs loc hf
  refine ⟨fs', h1, ?_⟩
  rw [h3, if_neg, hf.1]
  · rintro ⟨_, h⟩; have := h.length_le; simp at this; try omega
  · intro h
    have := List.prefix_append_right_inj loc |>.1 h
    simp at this
    exact hj (dirName_inj (i := j) (j := 0) this.symm)

/-- C91 (Squirrel, no lemmas): a Squirrel file with one problem has it written to `loc/0`, when nothing
is below the location and no file is on the way to it. -/
theorem C91_squirrel_one_partial (parse : α → Option (Pbl φ)) (tru : φ) (a : α) (p : Pbl φ)
    (hp : parse a = some p) (fs : FS φ) (loc : Path) (hf : Free fs loc) :
    runJson parse tru false fs loc [a] = some fun q =>
      if q = loc ++ ["0".toList] then some (.file p) else if q <+: loc then some .dir else fs q := by
  have := C91_file parse tru a p hp fs loc "0".toList (hf.1 _ []) hf.2
  simp only [runJson, runJsonFrom, show dirName 0 = "0".toList from by decide, this]

/-- Without lemmas no Squirrel file with two or more problems is ever written completely, whatever the
file system and the location: the first problem is the file `loc/0`, which cannot be the directory of
`loc/0/1`. -/
theorem C91_squirrel_file_counterexample (parse : α → Option (Pbl φ)) (tru : φ) (a b : α) (as : List α)
    (fs : FS φ) (loc : Path) : runJson parse tru false fs loc (a :: b :: as) = none := by
  simp only [runJson, runJsonFrom]
  split
  · rfl
  · rename_i fs1 h1
    have hf := runFromAst_file parse tru fs _ a fs1 h1
    rw [below_file parse tru false fs1 _ _ b hf]

/-- When the location is a file nothing is ever written for a Squirrel file. This is so of the default
location, `/dev/stdout` (cli.rs:102-103), although it is fine for other files (`C91_overwrite`). -/
theorem C91_squirrel_stdout_counterexample (parse : α → Option (Pbl φ)) (tru : φ) (lemmas : Bool)
    (a : α) (as : List α) (fs : FS φ) (loc : Path) (hf : isFile fs loc = true) :
    runJson parse tru lemmas fs loc (a :: as) = none := by
  simp only [runJson, runJsonFrom, below_file parse tru lemmas fs loc (dirName 0) a hf]

/-- C91 (one file, no lemmas): a file that is at the location is overwritten, and nothing else
changes. -/
theorem C91_overwrite (parse : α → Option (Pbl φ)) (tru : φ) (a : α) (p : Pbl φ) (hp : parse a = some p)
    (fs : FS φ) (d : Path) (c : List Char) (hn : isFile fs (d ++ [c]) = true) (hd : isDir fs d = true) :
    runFromAst parse tru false fs (d ++ [c]) a = some fun q =>
      if q = d ++ [c] then some (.file p) else fs q := by
  have hs : (fs (d ++ [c])).isSome = true := by
    simp only [isFile] at hn; split at hn
    · rename_i h; simp [h]
    · cases hn
  have hnd : isDir fs (d ++ [c]) = false := by
    simp only [isFile] at hn; split at hn
    · rename_i h; simp [isDir, h]
    · cases hn
  simp only [runFromAst, hp, runToFile, hs, if_true, Bool.false_eq_true, if_false]
  simp [PblIter.new, PblIter.assertOne, PblIter.next, save_some hd hnd]

/-! ### Nothing is lost -/

/-- SPEC: directories stay; outside of the location nothing changes, except that directories on the way to it may be new. -/
def Keeps (loc : Path) (fs fs' : FS φ) : Prop :=
  (∀ q, fs q = some .dir → fs' q = some .dir) ∧
    ∀ q, ¬ loc <+: q → fs' q = fs q ∨ (q <+: loc ∧ fs q = none ∧ fs' q = some .dir)

theorem Keeps.refl (loc : Path) (fs : FS φ) : Keeps loc fs fs := ⟨fun _ h => h, fun _ _ => .inl rfl⟩

theorem Keeps.trans {loc : Path} {a b c : FS φ} (h : Keeps loc a b) (h' : Keeps loc b c) : Keeps loc a c := by
  refine ⟨fun q e => h'.1 q (h.1 q e), fun q hq => ?_⟩
  rcases h.2 q hq with e | ⟨e1, e2, e3⟩
  · rcases h'.2 q hq with e' | ⟨e1, e2, e3⟩
    · exact .inl (e'.trans e)
    · exact .inr ⟨e1, e ▸ e2, e3⟩
  · exact .inr ⟨e1, e2, h'.1 q e3⟩

theorem Keeps.up {loc : Path} {c : List Char} {a b : FS φ} (h : Keeps (loc ++ [c]) a b) : Keeps loc a b := by
  refine ⟨h.1, fun q hq => ?_⟩
  rcases h.2 q (fun e => hq ((List.prefix_append _ _).trans e)) with e | ⟨e1, e2⟩
  · exact .inl e
  · refine .inr ⟨?_, e2⟩
    rcases List.prefix_concat_iff.1 e1 with e | e
    · exact (hq (e ▸ List.prefix_append _ _)).elim
    · exact e

theorem mkdirAll_keepsAll {loc p : Path} {fs fs' : FS φ} (hp : p <+: loc) (h : mkdirAll fs p = some fs') : Keeps loc fs fs' := by
  unfold mkdirAll at h
  split at h
  · cases h
  · next hn =>
    cases h
    refine ⟨fun q e => ?_, fun q hq => ?_⟩
    · show (if q <+: p then some Node.dir else fs q) = _
      split
      · rfl
      · exact e
    · show (if q <+: p then some Node.dir else fs q) = _ ∨ _ ∧ _ ∧ (if q <+: p then some Node.dir else fs q) = _
      split
      · next hq' =>
        cases e : fs q with
        | none => exact .inr ⟨hq'.trans hp, rfl, rfl⟩
        | some n =>
          cases n with
          | dir => exact .inl rfl
          | file c =>
            exfalso
            apply hn
            rw [List.any_eq_true]
            exact ⟨q, (List.mem_inits _ _).2 hq', by simp [isFile, e]⟩
      · exact .inl rfl

theorem save_keepsAll {loc p : Path} {c : Pbl φ} {fs fs' : FS φ} (hp : loc <+: p) (h : save fs p c = some fs') : Keeps loc fs fs' := by
  unfold save at h
  split at h
  · next hs =>
    cases h
    refine ⟨fun q e => ?_, fun q hq => .inl ?_⟩
    · show (if q = p then some (Node.file c) else fs q) = _
      split
      · next e' =>
        have := hs.2.2
        rw [← e'] at this
        simp [isDir, e] at this
      · exact e
    · show (if q = p then some (Node.file c) else fs q) = _
      rw [if_neg]
      rintro rfl
      exact hq hp
  · cases h

theorem collect_keepsAll {path : Path} {f : Nat × FS φ → Pbl φ → Except Unit Unit × Pbl φ × (Nat × FS φ)}
    (hf : ∀ s p, Keeps path s.2 (f s p).2.2.2) : ∀ (fuel : Nat) (s : Nat × FS φ) (it : PblIter φ) r it' s',
    PblIter.mapCollect f fuel s it = some (r, it', s') → Keeps path s.2 s'.2
  | 0, s, it, r, it', s', h => by simp [PblIter.mapCollect] at h
  | n + 1, s, it, r, it', s', h => by
    simp only [PblIter.mapCollect] at h
    split at h
    · simp only [Option.some.injEq, Prod.mk.injEq] at h
      rw [← h.2.2]; exact .refl _ _
    · next it1 _ =>
      have hk := hf s it1.pbl
      split at h
      · next e p' s1 e1 =>
        rw [e1] at hk
        simp only [Option.some.injEq, Prod.mk.injEq] at h
        rw [← h.2.2]; exact hk
      · next u p' s1 e1 =>
        rw [e1] at hk
        split at h
        · cases h
        · next us rr e2 =>
          simp only [Option.some.injEq, Prod.mk.injEq] at h
          rw [h.2] at e2
          exact hk.trans (collect_keepsAll hf n _ _ _ _ _ e2)
        · next us rr e2 =>
          simp only [Option.some.injEq, Prod.mk.injEq] at h
          rw [h.2] at e2
          exact hk.trans (collect_keepsAll hf n _ _ _ _ _ e2)

/-- C91 (nothing is lost): whatever is at the location, with or without lemmas, no directory is replaced by a file, and outside of the location nothing changes but that
directories on the way to it are made. -/
theorem C91_keeps (parse : α → Option (Pbl φ)) (tru : φ) (lemmas : Bool) (a : α) (fs fs' : FS φ) (loc : Path)
    (h : runFromAst parse tru lemmas fs loc a = some fs') : Keeps loc fs fs' := by
  unfold runFromAst at h
  split at h
  · cases h
  · split at h
    · unfold runToDir at h
      split at h
      · cases h
      · next fs1 h1 =>
        split at h
        · next r it n fs2 h2 =>
          cases h
          refine (mkdirAll_keepsAll List.prefix_rfl h1).trans (collect_keepsAll ?_ _ (0, fs1) _ _ _ _ h2)
          intro s p
          split
          · next h3 => exact save_keepsAll (List.prefix_append _ _) h3
          · exact .refl _ _
        · cases h
    · unfold runToFile at h
      dsimp only at h
      split at h
      · cases h
      · next fs1 h1 =>
        have hk : Keeps loc fs fs1 := by
          split at h1
          · cases h1; exact .refl _ _
          · split at h1
            · cases h1
            · exact mkdirAll_keepsAll (List.dropLast_prefix _) h1
        split at h
        · split at h
          · exact hk.trans (save_keepsAll List.prefix_rfl h)
          · cases h
        · cases h

/-- C91 (nothing is lost, Squirrel): the same for all the problems of a Squirrel file. -/
theorem C91_squirrel_keeps (parse : α → Option (Pbl φ)) (tru : φ) (lemmas : Bool) (as : List α) (fs fs' : FS φ) (loc : Path)
    (h : runJson parse tru lemmas fs loc as = some fs') : Keeps loc fs fs' := by
  unfold runJson at h
  suffices ∀ i fs loc, runJsonFrom parse tru lemmas i fs loc as = some fs' → Keeps loc fs fs' from this _ _ _ h
  clear h
  induction as with
  | nil => intro i fs loc h; cases h; exact .refl _ _
  | cons a as ih =>
    intro i fs loc h
    simp only [runJsonFrom] at h
    split at h
    · cases h
    · next fs1 h1 => exact ((C91_keeps _ _ _ _ _ _ _ h1).trans (ih _ _ _ h)).up

/-! ### Hypotheses are met -/

/-- A file system with a directory `out` and a file `dev`. -/
def exFS : FS Nat := fun q =>
  if q = [] then some .dir else if q = ["out".toList] then some .dir
  else if q = ["dev".toList] then some (.file ⟨[], [], 0, []⟩) else none

/-- A problem with two lemmas. -/
def exPbl : Pbl Nat := ⟨[1], [2, 3], 4, []⟩

/-- `C91_file`, `C91_dir`, `C91_squirrel_lemmas_partial`, `C91_side_by_side_counterexample`,
`C91_squirrel_one_partial`: a directory with nothing in it. -/
example : Free exFS ["out".toList] ∧ (some exPbl).isSome = true := by
  refine ⟨⟨fun c q => by simp [exFS], fun q hq => ?_⟩, rfl⟩
  rcases List.prefix_concat_iff (l₂ := []).1 hq with h | h
  · subst h; decide
  · simp at h; subst h; decide

/-- `C91_overwrite` and `C91_squirrel_stdout_counterexample`: a file. -/
example : isFile exFS ([] ++ ["dev".toList]) = true ∧ isDir exFS [] = true := by decide

/-- Three problems with lemmas: the last obligation of the third is in `out/0/1/2/2.smt`. -/
example : ∃ fs', runJson (fun p => some p) 0 true exFS ["out".toList] [exPbl, exPbl, exPbl] = some fs' ∧
    isFile fs' ["out".toList, "0".toList, "1".toList, "2".toList, "2.smt".toList] = true ∧
    isFile fs' ["out".toList, "0".toList, "1".toList, "2".toList, "3.smt".toList] = false :=
  ⟨_, rfl, by decide +kernel, by decide +kernel⟩

end Fls
end CV
