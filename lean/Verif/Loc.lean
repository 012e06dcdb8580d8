/-
Property C85: where an error message says the mistake is. Models `parser/location.rs`, `error/location/*.rs` and the parts of the
crate `pest` they use.
-/
import Mathlib.Data.List.TakeWhile

set_option linter.unusedSimpArgs false

namespace CV
namespace Loc

/-- A `str`: its characters. Offsets are counted in bytes of the UTF-8 encoding, as in the code. -/
abbrev Text := List Char

/-- `str::len`. -/
def len : Text → Nat
  | [] => 0
  | c :: s => c.utf8Size + len s

/-- `str::split_at_checked`: `none` if the offset is too large or inside a character. -/
def cut : Text → Nat → Option (Text × Text)
  | [], n => if n = 0 then some ([], []) else none
  | c :: s, n =>
    if n = 0 then some ([], c :: s)
    else if c.utf8Size ≤ n then (cut s (n - c.utf8Size)).map fun p => (c :: p.1, p.2)
    else none

/-- `str::get(a..b)`. -/
def slice (s : Text) (a b : Nat) : Option Text :=
  if a ≤ b then (cut s a).bind fun p => (cut p.2 (b - a)).map Prod.fst else none

/-- `pest::Span` (pest, span.rs): the whole input, and two offsets. -/
structure Span where
  input : Text
  start : Nat
  stop : Nat

/-- `pest::Span::new`: only if the offsets delimit a part of the input. -/
def Span.new (s : Text) (a b : Nat) : Option Span := (slice s a b).map fun _ => ⟨s, a, b⟩

/-- `pest::Span::as_str`. The index is in bounds for the spans that `Span.new` makes. -/
def Span.str (s : Span) : Text := (slice s.input s.start s.stop).getD []

/-- `pest::Position` (pest, position.rs). -/
structure Pos where
  input : Text
  pos : Nat

/-- `pest::Position::new`. -/
def Pos.new (s : Text) (n : Nat) : Option Pos := (cut s n).map fun _ => ⟨s, n⟩

/-- `pest::Position::span`. -/
def Pos.span (p q : Pos) : Span := ⟨p.input, p.pos, q.pos⟩

/-- The loop of `pest::Position::line_col` (position.rs) over the text before the position. -/
def lineColGo : Text → Nat × Nat → Nat × Nat
  | [], lc => lc
  | '\r' :: '\n' :: s, lc => lineColGo s (lc.1 + 1, 1)
  | '\n' :: s, lc => lineColGo s (lc.1 + 1, 1)
  | _ :: s, lc => lineColGo s (lc.1, lc.2 + 1)

/-- `pest::Position::line_col`. -/
def Pos.lineCol (p : Pos) : Nat × Nat := lineColGo (((cut p.input p.pos).map Prod.fst).getD []) (1, 1)

/-- `pest::Span::start_pos`. -/
def Span.startPos (s : Span) : Pos := ⟨s.input, s.start⟩

/-- Models `ASTLocation` and `InnerAstLocationHelper` (parser/location.rs:7-8, 51-58). -/
inductive ALoc
  | span (s : Span)
  | pos (p : Pos)
  | nothing

/-- Models the implementations of `Locate` behind a `Location` (error/location/location.rs:4-5): `PestLocation`
(parser/location.rs:112-122), `SpanLocation` (error/location/pest.rs:7-12), strings (error/location/str.rs) and `()`
(error/location/empty.rs). -/
inductive Location
  | pestSpan (str : Text) (start stop : Nat)
  | pestPos (str : Text) (pos : Nat)
  | spanLoc (str : Text) (start stop : Nat)
  | str (s : String)
  | unit

/-- Models `From<pest::Span> for PestLocation` (parser/location.rs:164-174). -/
def ofSpan (s : Span) : Location := .pestSpan s.str s.start s.stop

/-- Models `From<pest::Position> for PestLocation` (parser/location.rs:176-183). -/
def ofPos (p : Pos) : Location := .pestPos (p.span p).str p.pos

/-- Models `ASTLocation::as_location` (parser/location.rs:29-39). -/
def ALoc.asLocation : ALoc → Location
  | .span s => ofSpan s
  | .pos p => ofPos p
  | .nothing => .unit

/-- Models `LocateHelper for InnerAstLocationHelper` (parser/location.rs:60-71) with `()` (error/location/empty.rs:35-39): this is
how the nodes of the syntax tree give their location, `name` is the node written as text. -/
def ALoc.helpProvide (a : ALoc) (name : String) : Location :=
  match a with
  | .span s => ofSpan s
  | .pos p => ofPos p
  | .nothing => .str name

/-- Models `LocationProvider for pest::Span` (error/location/pest.rs:37-46). -/
def provideSpan (s : Span) : Location := .spanLoc s.str s.start s.stop

/-- Models `location::all` (parser/location.rs:185-187); the `unwrap` cannot fail. -/
def all (s : Text) : Location := ofPos ⟨s, 0⟩

/-- What is written. `report`: pest's message, with a line and a column (`pest::error::Error`; its layout and the quoted line are left
out). `failed`: the message "FAILED TO BUILD SPAN" with the error, the offsets and the text (parser/location.rs:140-148). -/
inductive Shown
  | report (line col : Nat) (msg : String)
  | failed (msg : String) (start stop : Nat) (content : Text)
  | text (s : String)
  | panic
  deriving DecidableEq

/-- The message with the backtrace (parser/location.rs:131-134). -/
def withTrace (err : String) : Option String → String
  | none => err
  | some b => err ++ "\nfrom:\n" ++ b ++ "\n"

/-- The same for `SpanLocation` (error/location/pest.rs:21-24). -/
def withTrace' (err : String) : Option String → String
  | none => "error: " ++ err ++ "\n"
  | some b => "error: " ++ err ++ "\n" ++ "backtrace:\n" ++ b ++ "\n"

/-- The end of the texts of error/location/str.rs:12-18 and empty.rs:10-15. -/
def traceEnd : Option String → String
  | none => ""
  | some b => "backtrace:\n" ++ b ++ "\n"

/-- `pest::error::Error::new_from_span` and `new_from_pos`: where the message points to. -/
def reportAt (p : Pos) (msg : String) : Shown := .report p.lineCol.1 p.lineCol.2 msg

/-- Models `location_fmt` (parser/location.rs:125-157, error/location/pest.rs:15-30, str.rs:6-19, empty.rs:4-16), which is how an
`Error` is displayed (error/error.rs:14-21). -/
def Location.fmt (err : String) (bt : Option String) : Location → Shown
  | .pestSpan s a b =>
    match Span.new s a b with
    | some sp => reportAt sp.startPos (withTrace err bt)
    | none => .failed err a b s
  | .pestPos s n =>
    match Pos.new s n with
    | some p => reportAt p (withTrace err bt)
    | none => .panic
  | .spanLoc s a b =>
    match Span.new s a b with
    | some sp => reportAt sp.startPos (withTrace' err bt)
    | none => .panic
  | .str s => .text ("error!\n" ++ err ++ "\nat: " ++ s ++ "\n" ++ traceEnd bt)
  | .unit => .text ("error!\n" ++ err ++ "\n" ++ traceEnd bt)

/-- Models the error made of a text that the grammar refuses (parser/ast/main.rs:26-27); `e` is pest's message. -/
def syntaxError (file : Text) (e : String) (bt : Option String) : Shown := (all file).fmt e bt

/-! ## Specification -/

/-- SPECIFICATION. `t` is the part of the file between the offsets `a` and `b`, and `before` what comes before it. -/
def PartAt (file : Text) (a b : Nat) (before t : Text) : Prop :=
  ∃ after, file = before ++ t ++ after ∧ len before = a ∧ a + len t = b

/-- SPECIFICATION. The line of what comes after `before`: one more than the ends of lines. -/
def lineAfter (before : Text) : Nat := before.count '\n' + 1

/-- SPECIFICATION. Its column: one more than the characters since the last end of line. -/
def colAfter (before : Text) : Nat := (before.reverse.takeWhile (· ≠ '\n')).length + 1

/-- SPECIFICATION. A message points to a place, with a text that contains the error. -/
def PointsTo (line col : Nat) (err : String) (sh : Shown) : Prop := ∃ pre post, sh = .report line col (pre ++ err ++ post)

/-! ## Texts -/

theorem len_append (s t : Text) : len (s ++ t) = len s + len t := by
  induction s with
  | nil => simp [len]
  | cons c s ih => simp only [List.cons_append, len, ih]; omega

theorem len_eq_zero {s : Text} (h : len s = 0) : s = [] := by
  cases s with
  | nil => rfl
  | cons c s => have := c.utf8Size_pos; simp only [len] at h; omega

theorem cut_iff {s : Text} {n : Nat} {p q : Text} : cut s n = some (p, q) ↔ s = p ++ q ∧ len p = n := by
  induction s generalizing n p with
  | nil =>
    simp only [cut]
    constructor
    · intro h
      split at h
      · cases h; simp [len]; omega
      · cases h
    · rintro ⟨h, rfl⟩
      have := List.append_eq_nil_iff.1 h.symm
      simp [this.1, this.2, len]
  | cons c s ih =>
    have hc := c.utf8Size_pos
    simp only [cut]
    constructor
    · intro h
      split at h
      · cases h; simp [len]; omega
      · split at h
        · obtain ⟨⟨a, b⟩, h1, h2⟩ := Option.map_eq_some_iff.1 h
          cases h2
          obtain ⟨rfl, h3⟩ := ih.1 h1
          exact ⟨rfl, by simp only [len]; omega⟩
        · cases h
    · rintro ⟨h, hl⟩
      cases p with
      | nil =>
        have : n = 0 := by rw [← hl]; rfl
        subst this
        simp at h
        simp [h]
      | cons d p =>
        simp only [List.cons_append, List.cons.injEq] at h
        obtain ⟨rfl, rfl⟩ := h
        simp only [len] at hl
        rw [if_neg (by omega), if_pos (by omega), ih.2 ⟨rfl, show len p = n - c.utf8Size by omega⟩]
        rfl

theorem slice_iff {s : Text} {a b : Nat} {t : Text} : slice s a b = some t ↔ ∃ p, PartAt s a b p t := by
  unfold slice PartAt
  constructor
  · intro h
    split at h
    · obtain ⟨⟨p, r⟩, h1, h2⟩ := Option.bind_eq_some_iff.1 h
      obtain ⟨⟨t', q⟩, h3, h4⟩ := Option.map_eq_some_iff.1 h2
      cases h4
      obtain ⟨rfl, h5⟩ := cut_iff.1 h1
      obtain ⟨h6, h7⟩ := cut_iff.1 h3
      change r = _ at h6
      exact ⟨p, q, by rw [h6, List.append_assoc], h5, by change len t' = _ at h7; show a + len t' = b; omega⟩
    · cases h
  · rintro ⟨p, q, rfl, h1, h2⟩
    rw [if_pos (by omega), cut_iff.2 ⟨List.append_assoc p t q, h1⟩]
    simp only [Option.bind_some]
    rw [cut_iff.2 ⟨rfl, show len t = b - a by omega⟩]
    rfl

theorem PartAt.str {file : Text} {a b : Nat} {p t : Text} (h : PartAt file a b p t) : (Span.mk file a b).str = t := by
  simp [Span.str, slice_iff.2 ⟨p, h⟩]

/-- What was cut out has the offsets it had only if it was at the beginning. -/
theorem slice_again {file : Text} {a b : Nat} {p t : Text} (h : PartAt file a b p t) : (slice t a b).isSome = true ↔ a = 0 := by
  obtain ⟨q, -, h1, h2⟩ := h
  constructor
  · intro hs
    obtain ⟨u, hu⟩ := Option.isSome_iff_exists.1 hs
    obtain ⟨p', q', rfl, h3, h4⟩ := slice_iff.1 hu
    simp only [len_append] at h2
    omega
  · rintro rfl
    have : slice t 0 b = some t := slice_iff.2 ⟨[], [], by simp, rfl, h2⟩
    rw [this]
    rfl

theorem colAfter_mem {c : Char} {s : Text} (h : '\n' ∈ s) : colAfter (c :: s) = colAfter s := by
  simp only [colAfter, List.reverse_cons, List.takeWhile_append]
  rw [if_neg]
  intro h1
  have h2 := List.takeWhile_sublist (fun x => decide (x ≠ '\n')) (l := s.reverse)
  have h3 := h2.eq_of_length h1
  have h4 := List.all_takeWhile (p := fun x => decide (x ≠ '\n')) (l := s.reverse)
  rw [h3, List.all_eq_true] at h4
  simpa using h4 '\n' (List.mem_reverse.2 h)

theorem takeWhile_all {s : Text} (h : '\n' ∉ s) : s.reverse.takeWhile (fun x => decide (x ≠ '\n')) = s.reverse :=
  List.takeWhile_eq_self_iff.2 fun x hx => by
    simp only [ne_eq, decide_not, Bool.not_eq_eq_eq_not, Bool.not_true, decide_eq_false_iff_not]
    rintro rfl
    exact h (List.mem_reverse.1 hx)

theorem colAfter_new {s : Text} (h : '\n' ∉ s) : colAfter ('\n' :: s) = s.length + 1 := by
  simp only [colAfter, List.reverse_cons, List.takeWhile_append, takeWhile_all h, if_true]
  simp

theorem lineColGo_spec (s : Text) (lc : Nat × Nat) : lineColGo s lc =
    (lc.1 + s.count '\n', if '\n' ∈ s then colAfter s else lc.2 + s.length) := by
  have hnew : ∀ (s : Text) (l : Nat), (l + 1 + s.count '\n', if '\n' ∈ s then colAfter s else 1 + s.length) =
      (l + ('\n' :: s).count '\n', if '\n' ∈ '\n' :: s then colAfter ('\n' :: s) else 0) := by
    intro s l
    rw [List.count_cons_self, if_pos List.mem_cons_self]
    congr 1
    · omega
    · split
      · rw [colAfter_mem (by assumption)]
      · rw [colAfter_new (by assumption)]; omega
  induction s, lc using lineColGo.induct with
  | case1 lc => simp [lineColGo]
  | case2 s lc ih =>
    rw [lineColGo, ih, hnew]
    simp only [List.mem_cons_self, if_true, List.mem_cons, true_or, or_true]
    rw [colAfter_mem List.mem_cons_self]
    simp
  | case3 s lc ih =>
    rw [lineColGo, ih, hnew]
    simp only [List.mem_cons_self, if_true]
  | case4 c s lc h1 h2 ih =>
    have hc : c ≠ '\n' := fun e => h2 e
    rw [lineColGo, ih]
    · simp only [List.count_cons_of_ne hc, List.mem_cons, Ne.symm hc, false_or, List.length_cons]
      congr 1
      split
      · rw [colAfter_mem (by assumption)]
      · omega
    · exact h1
    · exact h2

theorem lineCol_spec {file before rest : Text} (h : file = before ++ rest) :
    (Pos.mk file (len before)).lineCol = (lineAfter before, colAfter before) := by
  simp only [Pos.lineCol, cut_iff.2 ⟨h, rfl⟩, Option.map_some, Option.getD_some, lineColGo_spec, lineAfter]
  congr 1
  · omega
  · split
    · rfl
    · rename_i hn
      simp only [colAfter, takeWhile_all hn, List.length_reverse]
      omega

/-! ## The property -/

/-- **C85 (what it should be).** A message about a part of the file points to where this part is. -/
def Located (provide : Span → Location) : Prop :=
  ∀ (file before t : Text) (a b : Nat), PartAt file a b before t → ∀ (err : String) (bt : Option String),
    PointsTo (lineAfter before) (colAfter before) err ((provide ⟨file, a, b⟩).fmt err bt)

theorem withTrace_eq (err : String) (bt : Option String) : ∃ post, withTrace err bt = "" ++ err ++ post := by
  cases bt with
  | none => exact ⟨"", by simp [withTrace]⟩
  | some b => exact ⟨"\nfrom:\n" ++ b ++ "\n", by simp [withTrace, String.append_assoc]⟩

theorem withTrace'_eq (err : String) (bt : Option String) : ∃ pre post, withTrace' err bt = pre ++ err ++ post := by
  cases bt with
  | none => exact ⟨"error: ", "\n", by simp [withTrace', String.append_assoc]⟩
  | some b => exact ⟨"error: ", "\n" ++ "backtrace:\n" ++ b ++ "\n", by simp [withTrace', String.append_assoc]⟩

theorem new_again {file before t : Text} {a b : Nat} (h : PartAt file a b before t) :
    Span.new t a b = if a = 0 then some ⟨t, a, b⟩ else none := by
  unfold Span.new
  split
  · obtain ⟨u, hu⟩ := Option.isSome_iff_exists.1 ((slice_again h).2 ‹_›)
    rw [hu]; rfl
  · cases hs : slice t a b with
    | none => rfl
    | some u => exact absurd ((slice_again h).1 (by rw [hs]; rfl)) ‹_›

theorem lineCol_zero (t : Text) (b : Nat) : (Span.mk t 0 b).startPos.lineCol = (1, 1) :=
  lineCol_spec (file := t) (before := []) rfl

theorem before_nil {file before t : Text} {b : Nat} (h : PartAt file 0 b before t) : before = [] := by
  obtain ⟨_, _, h, _⟩ := h
  exact len_eq_zero h

/-- **C85 (the tree).** For every part of every file: a message about a node of the syntax tree points to its place if and only if the
node is at the very beginning of the file. -/
theorem C85_tree_iff (file before t : Text) (a b : Nat) (h : PartAt file a b before t) (name err : String) (bt : Option String) :
    PointsTo (lineAfter before) (colAfter before) err (((ALoc.span ⟨file, a, b⟩).helpProvide name).fmt err bt) ↔ a = 0 := by
  simp only [ALoc.helpProvide, ofSpan, h.str, Location.fmt, new_again h]
  constructor
  · intro hp
    by_contra ha
    obtain ⟨x, y, hx⟩ := hp
    rw [if_neg ha] at hx
    cases hx
  · rintro rfl
    obtain ⟨post, hp⟩ := withTrace_eq err bt
    have := before_nil h
    subst this
    refine ⟨"", post, ?_⟩
    rw [if_pos rfl]
    show Shown.report _ _ _ = _
    rw [lineCol_zero, hp]
    rfl

/-- **C85 (the tree, otherwise).** For a part that is not at the beginning the message gives up: it shows the error, the offsets of the
part and its text, and no line. -/
theorem C85_tree_otherwise (file before t : Text) (a b : Nat) (h : PartAt file a b before t) (ha : a ≠ 0) (name err : String)
    (bt : Option String) : ((ALoc.span ⟨file, a, b⟩).helpProvide name).fmt err bt = .failed err a b t ∧
      (ALoc.span ⟨file, a, b⟩).asLocation.fmt err bt = .failed err a b t := by
  simp only [ALoc.helpProvide, ALoc.asLocation, ofSpan, h.str, Location.fmt, new_again h, if_neg ha, and_self]

/-- **C85 (the conversion of pairs).** A mistake found while the tree is made is given with a span of pest. Showing it points to its place
if it is at the beginning of the file, and panics otherwise. -/
theorem C85_conversion (file before t : Text) (a b : Nat) (h : PartAt file a b before t) (err : String) (bt : Option String) :
    (a = 0 → PointsTo (lineAfter before) (colAfter before) err ((provideSpan ⟨file, a, b⟩).fmt err bt)) ∧
    (a ≠ 0 → (provideSpan ⟨file, a, b⟩).fmt err bt = .panic) := by
  simp only [provideSpan, h.str, Location.fmt, new_again h]
  constructor
  · rintro rfl
    obtain ⟨pre, post, hp⟩ := withTrace'_eq err bt
    have := before_nil h
    subst this
    refine ⟨pre, post, ?_⟩
    rw [if_pos rfl]
    show Shown.report _ _ _ = _
    rw [lineCol_zero, hp]
    rfl
  · intro ha
    rw [if_neg ha]

/-- **C85 (positions).** A place in the file, not a part of it, is shown if it is the beginning, and showing it panics otherwise. -/
theorem C85_position (file before after : Text) (hf : file = before ++ after) (err : String) (bt : Option String) :
    (ALoc.pos ⟨file, len before⟩).asLocation.fmt err bt = if before = [] then .report 1 1 (withTrace err bt) else .panic := by
  have hs : (Span.mk file (len before) (len before)).str = [] := PartAt.str (p := before) ⟨after, by simpa using hf, rfl, rfl⟩
  simp only [ALoc.asLocation, ofPos, Pos.span, hs, Location.fmt, Pos.new]
  by_cases hb : before = []
  · subst hb
    rfl
  · have : cut [] (len before) = none := by
      simp only [cut]
      exact if_neg fun h => hb (len_eq_zero h)
    simp only [this, Option.map_none, if_neg hb]

/-- **C85 (syntax errors).** The message for a text that the grammar refuses says line 1 column 1 around the message of pest,
whatever the mistake. -/
theorem C85_syntax (file : Text) (e : String) (bt : Option String) : syntaxError file e bt = .report 1 1 (withTrace e bt) := by
  have := C85_position file [] file rfl e bt
  rw [if_pos rfl] at this
  exact this

/-- **C85 (names without a place).** What does not come from a file (Squirrel problems) is shown with the name. -/
theorem C85_nowhere (name err : String) (bt : Option String) :
    (ALoc.nothing.helpProvide name).fmt err bt = .text ("error!\n" ++ err ++ "\nat: " ++ name ++ "\n" ++ traceEnd bt) := rfl

/-- **C85 (errors without a place or a name).** What does not come from a file and has no name is shown without a position: whatever is shown is
the message, and nothing that could be taken for a place. -/
theorem C85_nameless (err : String) (bt : Option String) :
    ALoc.nothing.asLocation.fmt err bt = .text ("error!\n" ++ err ++ "\n" ++ traceEnd bt) := rfl

/-- The second declaration of a type in a file of two lines, and its name. -/
def twice : Text := "type T\ntype T".toList
theorem twice_part : PartAt twice 12 13 "type T\ntype ".toList "T".toList := ⟨[], by decide +kernel, by decide +kernel, by decide +kernel⟩

/-- Two operators in a row of terms, and the second operator. -/
def mixed : Text := "(a && b || c)".toList
theorem mixed_part : PartAt mixed 8 10 "(a && b ".toList "||".toList := ⟨" c)".toList, by decide +kernel, by decide +kernel, by decide +kernel⟩

/-- **C85 is false of the code.** The second declaration of a type is not located, though it is on line 2 in column 6. -/
theorem C85_tree_counterexample : ¬ Located fun s => (ALoc.span s).helpProvide "T" := fun h => by
  have h1 := h twice _ _ _ _ twice_part "reason: the sort name T is already in use" none
  exact absurd ((C85_tree_iff twice _ _ 12 13 twice_part "T" _ none).1 h1) (by decide)

/-- **C85 is false of the code.** Showing the error about two different operators panics. -/
theorem C85_conversion_counterexample : ¬ Located provideSpan := fun h => by
  obtain ⟨pre, post, h1⟩ := h mixed _ _ _ _ mixed_part "reason: should be &&" none
  rw [(C85_conversion mixed _ _ 8 10 mixed_part _ none).2 (by decide)] at h1
  cases h1

/-- The specification counts as one expects. -/
example : lineAfter "type T\ntype ".toList = 2 ∧ colAfter "type T\ntype ".toList = 6 := by decide +kernel

/-- The hypothesis of `C85_tree_iff` and `C85_conversion` is met, at the beginning and elsewhere, also after a character of two bytes. -/
example : PartAt "é T".toList 0 2 [] "é".toList ∧ PartAt "é T".toList 3 4 "é ".toList "T".toList :=
  ⟨⟨" T".toList, by decide +kernel, by decide +kernel, by decide +kernel⟩, ⟨[], by decide +kernel, by decide +kernel, by decide +kernel⟩⟩

/-- At the beginning the place is shown. -/
example : ((ALoc.span ⟨"T T".toList, 0, 1⟩).helpProvide "T").fmt "e" none = .report 1 1 "e" := by decide +kernel

end Loc
end CV
