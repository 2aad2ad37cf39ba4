import Verif.Model.Modint
/-!
# Model of `/repo/src/misc/input.rs`

`str::split_whitespace`, `char::is_whitespace` and `FromStr` of the integer types are from the standard
library; they are modelled after its documentation and source.
-/
namespace Verif.Model
open Res

/-- `char::is_whitespace`: the Unicode property `White_Space`. -/
def isWs (c : Char) : Bool :=
  let n := c.toNat
  (9 ≤ n && n ≤ 13) || n == 0x20 || n == 0x85 || n == 0xA0 || n == 0x1680 || (0x2000 ≤ n && n ≤ 0x200A) ||
    n == 0x2028 || n == 0x2029 || n == 0x202F || n == 0x205F || n == 0x3000

/-- The state of `str::split(char::is_whitespace)`: the text not yet split, or `none` when finished. -/
abbrev Split := Option (List Char)

/-- `Split::next`: the text up to the next whitespace character, which is dropped; the last piece ends the
iterator. -/
def Split.next : Split → Option (List Char × Split)
  | none => none
  | some s =>
    match s.span (fun c => !isWs c) with
    | (p, []) => some (p, none)
    | (p, _ :: rest) => some (p, some rest)

/-- `SplitWhitespace::next`: the next piece that is not empty. Fuel: each piece uses up a character or ends the
iterator. -/
def nextToken : Nat → Split → Option (List Char) × Split
  | 0, it => (none, it)
  | fuel + 1, it =>
    match it.next with
    | none => (none, it)
    | some (p, it') => if p = [] then nextToken fuel it' else (some p, it')

/-- `/repo/src/misc/input.rs:3-5`, `In`. -/
structure In where
  iter : Split
deriving DecidableEq

/-- `/repo/src/misc/input.rs:7-11`, `new`. -/
def In.new (s : List Char) : In := ⟨some s⟩

/-- `self.iter.next()`. -/
def In.next (i : In) : Option (List Char) × In :=
  let (t, it) := nextToken ((i.iter.getD []).length + 2) i.iter
  (t, ⟨it⟩)

/-- `/repo/src/misc/input.rs:12-14`, `read`; `parse` is the `FromStr` of the type. The state of the reader after
a panic is not observable. -/
def In.read (parse : List Char → Option α) (i : In) : Res (α × In) := do
  let (t, i) := i.next
  let t ← unwrap t
  let v ← unwrap (parse t)
  ok (v, i)

/-- `/repo/src/misc/input.rs:15-20`, `checked_read`. -/
def In.checkedRead (parse : List Char → Option α) (i : In) : Res (Option α × In) :=
  match i.next with
  | (some x, i) => do
    let v ← unwrap (parse x)
    ok (some v, i)
  | (none, i) => ok (none, i)

/-- `/repo/src/misc/input.rs:31-33`, `bytes`: the UTF-8 code of the token. -/
def In.bytes (i : In) : Res (List UInt8 × In) := do
  let (t, i) := i.next
  let t ← unwrap t
  ok (t.flatMap String.utf8EncodeChar, i)

/-- `/repo/src/misc/input.rs:34-36`, `chars`. -/
def In.chars (i : In) : Res (List Char × In) := do
  let (t, i) := i.next
  let t ← unwrap t
  ok (t, i)

/-- `/repo/src/misc/input.rs:37-39`, `vec`. -/
def In.vec (parse : List Char → Option α) (n : Nat) (i : In) : Res (List α × In) :=
  forRange 0 n (([], i) : List α × In) fun _ s => do
    let (v, i) ← s.2.read parse
    ok (s.1 ++ [v], i)

/-- `/repo/src/misc/input.rs:21-23`, `i32`. -/
def In.i32 (i : In) : Res (Int × In) := i.read (parseInt Model.i32)
/-- `/repo/src/misc/input.rs:24-26`, `i64`. -/
def In.i64 (i : In) : Res (Int × In) := i.read (parseInt Model.i64)
/-- `/repo/src/misc/input.rs:27-29`, `usize`. -/
def In.usize (i : In) : Res (Int × In) := i.read (parseInt ⟨false, 64⟩)

end Verif.Model
