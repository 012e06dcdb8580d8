/-
Model of the name sanitizer of the Squirrel front end: squirrel/converters/mod.rs, squirrel/mod.rs and
squirrel/json/path.rs. Paths are relative to /repo/crates/cryptovampire/src.

Unicode's `char::is_alphanumeric` is a parameter `alnum`; the only fact about it the proofs use is that
an underscore is not alphanumeric. `base64::Engine::encode` is an external crate: modelled here by its
documented behaviour (groups of three bytes to four symbols, no padding, trailing bits zero).
-/
namespace CV
namespace Sq

/-- Models `SanitizeKind` (squirrel/mod.rs:50-59). -/
inductive Kind
  | variable | function | step | mac | cell | name | sort
  deriving DecidableEq

/-- Models `Display for SanitizeKind` (squirrel/mod.rs:51-73). -/
def Kind.pref : Kind → String
  | .variable => "var_"
  | .function => "fun_"
  | .mac => "fun_"
  | .step => "step_"
  | .cell => "cell_"
  | .name => "name_"
  | .sort => "sort_"

/-- Models `REMMAPPED_FUNCTION` (squirrel/converters/mod.rs:35-70). The right-hand sides that are
`X.name()` in the source are written out (formula/function/inner/booleans.rs:27-37 and 95-97,
formula/function/builtin.rs:150-180 and 214-228, formula/function/inner/term_algebra/step_macro.rs:66-73,
formula/function/inner/step.rs:46-50). -/
def remapped : List (String × String) :=
  [ ("&&", "and"), ("and", "and"), ("||", "or"), ("or", "or"), ("<=>", "="), ("=>", "=>"), ("=", "="),
    ("<>", "!="), ("<=", "leq"), ("<", "lt"), (">", "gt"), ("not", "not"), ("true", "true"),
    ("false", "false"), ("empty", "empty"), ("ø", "empty"), ("happens", "happens"), ("pred", "pred"),
    ("init", "init"), ("pair", "pair"), ("fst", "fst"), ("snd", "snd"), ("input", "input"),
    ("cond", "cond"), ("output", "msg"), ("exec", "exec"), ("fail", "fail"), ("if", "if") ]

/-- The lookup of squirrel/converters/mod.rs:178-180. -/
def remap (s : String) : Option String := remapped.lookup s

/-- The alphabet of `SMT_SAFE` (squirrel/converters/mod.rs:163-166). -/
def alphabet : List Char :=
  "ABCDEFGHIJKLMNOPQRSTUVWXYZabcdefghijklmnopqrstuvwxyz0123456789#$".toList

/-- One base64 symbol. -/
def sym (n : Nat) : Char := alphabet.getD n 'A'

/-- Models `encode` of a byte string with the engine of squirrel/converters/mod.rs:163-173 (`NO_PAD`). -/
def b64 : List Nat → List Char
  | [] => []
  | [a] => [sym (a / 4), sym (a % 4 * 16)]
  | [a, b] => [sym (a / 4), sym (a % 4 * 16 + b / 16), sym (b % 16 * 4)]
  | a :: b :: c :: r =>
    sym (a / 4) :: sym (a % 4 * 16 + b / 16) :: sym (b % 16 * 4 + c / 64) :: sym (c % 64) :: b64 r

/-- The UTF-8 bytes of a string (`AsRef<[u8]> for str`). -/
def utf8 (s : String) : List Nat := s.toByteArray.data.toList.map UInt8.toNat

/-- Models the closure of squirrel/converters/mod.rs:182-187. -/
def encodeIfNeeded (alnum : Char → Bool) (s : String) : String :=
  if s.toList.all alnum then s else "_base64_" ++ String.ofList (b64 (utf8 s))

/-- Models `Context::sanitize` (squirrel/converters/mod.rs:175-190); `k` is `sanitize_kind()` and `s` is
`to_str_ref()` of the object. -/
def sanitize (alnum : Char → Bool) (k : Kind) (s : String) : String :=
  match remap s with
  | some r => r
  | none => k.pref ++ encodeIfNeeded alnum s

/-- Models `Path` with its `NamesPath` (squirrel/json/path.rs:12-37). -/
structure Path where
  npath : List String
  symb : String
  deriving DecidableEq

/-- `Itertools::join`/`format` with a separator (used at squirrel/json/path.rs:22 and 80-86). -/
def joinWith (sep : String) : List String → String
  | [] => ""
  | [x] => x
  | x :: y :: r => x ++ (sep ++ joinWith sep (y :: r))

/-- Models `Path::to_str_ref` and `Display for Path` (squirrel/json/path.rs:47-53, 76-88), with
`SEPARATOR` (line 10). -/
def Path.toStr (p : Path) : String :=
  if p.npath.isEmpty then p.symb else joinWith "$#$" (p.npath ++ [p.symb])

/-- Models `CryptoVampireStrValidator::validate` (squirrel/json/mod.rs:71-83): a `Symb` that was
deserialized satisfies this. -/
def validSymb (s : String) : Bool :=
  s == "$dummy" || !(s.toList.any fun c => c == ';' || c == '$' || c == '#')

/-- Every component of a deserialized path was validated (`Symb`, squirrel/json/mod.rs:83). -/
def Path.valid (p : Path) : Bool := p.npath.all validSymb && validSymb p.symb

end Sq
end CV
