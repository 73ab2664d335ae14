import Mathlib.Data.Nat.Notation

/-! # Model of `utility/bin2str/src/main.rs`

Strings are lists of characters; everything pushed is ASCII, so byte and character counts agree. -/

namespace Verif.Bin2str

/-- main.rs 8: `format!("{}, ", b)`. -/
def token (b : UInt8) : List Char := (toString b.toNat).toList ++ [',', ' ']

/-- main.rs 15: `s.len() - 1 - s.chars().rev().position(|c| c == ' ').unwrap()`, the position of the
last space; `none` is the panic. -/
def lastSpace (s : List Char) : Option ℕ :=
  (s.reverse.findIdx? (· = ' ')).map (fun p => s.length - 1 - p)

/-- main.rs 7-20: one iteration of the loop on `(s, counter)`. -/
def step (st : List Char × ℕ) (b : UInt8) : Option (List Char × ℕ) :=
  let push := token b
  let s := st.1 ++ push
  let counter := st.2 + push.length
  if counter > 80 then
    let s := s.dropLast
    match lastSpace s with
    | none => none
    | some pos =>
      let s := s.take pos ++ ['\n', ' ', ' ', ' '] ++ s.drop pos
      let s := s ++ [' ']
      some (s, s.length - pos - 1)
  else some (s, counter)

/-- main.rs 1-23 `byte2char`. -/
def byte2char (x : List UInt8) : Option (List Char) :=
  (x.foldlM step ([' ', ' ', ' ', ' '], 4)).map (·.1)

/-- main.rs 25-33 `convert_file`, given the bytes read. -/
def convertFile (bytes : List UInt8) : Option (List Char) :=
  (byte2char bytes).map (fun s => s.dropLast.dropLast)

/-- main.rs 55-60: the text written to `output.rs`. -/
def program (bytes : List UInt8) : Option (List Char) :=
  (convertFile bytes).map (fun s => "pub static wav: [u8;_] = [\n".toList ++ s ++ "\n];\n".toList)

end Verif.Bin2str
