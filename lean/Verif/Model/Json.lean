import Verif.Model.MathStr
/-
Model of the JSON text layer used by the serializer (json.dumps(…, indent=2)/orjson.dumps and the matching loads).  The JSON libraries are not part of the repository;
this file is a concrete implementation of the JSON grammar they follow, used by `itree_json_serialize.py`.
Texts are lists of characters (the UTF-8 encoding of the bytes is not modelled).
Simplifications: a float is represented by a decimal literal denoting it (CPython guarantees float(repr(x)) == x); strings contain no lone surrogates.
-/
namespace Json

open MSets (isDigit decStr intStr pyNat)

/-- JSON documents. `flt` carries the literal of the float. (the JSON libraries; used in itree_json_serialize.py 266-311, 420-454) -/
inductive J where
  | null | bool (b : Bool) | int (z : Int) | flt (tok : List Char) | inf | ninf | nan
  | str (s : List Char) | arr (l : List J) | obj (l : List (List Char × J))
  deriving Inhabited

/-! ### printing -/

/-- json: `ascii` (ensure_ascii) and `indent` (indent=2); orjson: neither (itree_json_serialize.py 266-311) -/
structure Style where
  ascii : Bool
  indent : Bool

/-- a hexadecimal digit (JSON library; used in itree_json_serialize.py 266-311) -/
def hexDigit (n : Nat) : Char := if n < 10 then Char.ofNat (48 + n) else Char.ofNat (87 + n)

/-- `\uXXXX` (JSON library; used in itree_json_serialize.py 266-311) -/
def u4 (n : Nat) : List Char := ['\\', 'u', hexDigit (n / 4096 % 16), hexDigit (n / 256 % 16), hexDigit (n / 16 % 16), hexDigit (n % 16)]

/-- one character of a string literal (JSON library; used in itree_json_serialize.py 266-311) -/
def escChar (ascii : Bool) (c : Char) : List Char :=
  if c = '"' then ['\\', '"'] else if c = '\\' then ['\\', '\\']
  else if c = '\n' then ['\\', 'n'] else if c = '\r' then ['\\', 'r'] else if c = '\t' then ['\\', 't']
  else if c = '\x08' then ['\\', 'b'] else if c = '\x0c' then ['\\', 'f']
  else if c.toNat < 32 then u4 c.toNat
  else if ascii && decide (126 < c.toNat) then
    if c.toNat < 65536 then u4 c.toNat else u4 (55296 + (c.toNat - 65536) / 1024) ++ u4 (56320 + (c.toNat - 65536) % 1024)
  else [c]

/-- a string literal (JSON library; used in itree_json_serialize.py 266-311) -/
def strLit (ascii : Bool) (s : List Char) : List Char := '"' :: (s.flatMap (escChar ascii) ++ ['"'])

/-- line break and indentation (JSON library; used in itree_json_serialize.py 266-311) -/
def Style.nl (st : Style) (k : Nat) : List Char := if st.indent then '\n' :: List.replicate (2 * k) ' ' else []
/-- the separator after a key (JSON library; used in itree_json_serialize.py 266-311) -/
def Style.colon (st : Style) : List Char := if st.indent then [':', ' '] else [':']

mutual
/-- the text of a document at nesting level `k` (JSON library; used in itree_json_serialize.py 266-311) -/
def pr (st : Style) (k : Nat) : J → List Char
  | .null => ['n', 'u', 'l', 'l']
  | .bool true => ['t', 'r', 'u', 'e']
  | .bool false => ['f', 'a', 'l', 's', 'e']
  | .int z => intStr z
  | .flt t => t
  | .inf => ['I', 'n', 'f', 'i', 'n', 'i', 't', 'y']
  | .ninf => ['-', 'I', 'n', 'f', 'i', 'n', 'i', 't', 'y']
  | .nan => ['N', 'a', 'N']
  | .str s => strLit st.ascii s
  | .arr [] => ['[', ']']
  | .arr (x :: xs) => '[' :: (st.nl (k + 1) ++ pr st (k + 1) x ++ prTail st (k + 1) xs ++ st.nl k ++ [']'])
  | .obj [] => ['{', '}']
  | .obj ((n, v) :: ms) => '{' :: (st.nl (k + 1) ++ strLit st.ascii n ++ st.colon ++ pr st (k + 1) v ++ prMems st (k + 1) ms ++ st.nl k ++ ['}'])
/-- the elements after the first (JSON library; used in itree_json_serialize.py 266-311) -/
def prTail (st : Style) (k : Nat) : List J → List Char
  | [] => []
  | x :: xs => ',' :: (st.nl k ++ pr st k x ++ prTail st k xs)
/-- the members of an object (JSON library; used in itree_json_serialize.py 266-311) -/
def prMems (st : Style) (k : Nat) : List (List Char × J) → List Char
  | [] => []
  | (n, v) :: ms => ',' :: (st.nl k ++ strLit st.ascii n ++ st.colon ++ pr st k v ++ prMems st k ms)
end

/-! ### parsing -/

/-- JSON white space (JSON library; used in itree_json_serialize.py 420-454) -/
def isWs (c : Char) : Bool := c == ' ' || c == '\n' || c == '\t' || c == '\r'
/-- JSON library; used in itree_json_serialize.py 420-454 -/
def skipWs (s : List Char) : List Char := s.dropWhile isWs

/-- the value of a hexadecimal digit (JSON library; used in itree_json_serialize.py 420-454) -/
def hexVal (c : Char) : Option Nat :=
  if isDigit c then some (c.toNat - 48)
  else if 'a' ≤ c && c ≤ 'f' then some (c.toNat - 87)
  else if 'A' ≤ c && c ≤ 'F' then some (c.toNat - 55) else none

/-- four hexadecimal digits (JSON library; used in itree_json_serialize.py 420-454) -/
def hex4 : List Char → Option (Nat × List Char)
  | a :: b :: c :: d :: r => match hexVal a, hexVal b, hexVal c, hexVal d with
    | some a, some b, some c, some d => some (4096 * a + 256 * b + 16 * c + d, r)
    | _, _, _, _ => none
  | _ => none

/-- the rest of a `\u` escape: one code unit or a surrogate pair (JSON library; used in itree_json_serialize.py 420-454) -/
def uEsc (s : List Char) : Option (Char × List Char) :=
  match hex4 s with
  | none => none
  | some (n, r) =>
    if n < 55296 ∨ 57344 ≤ n then some (Char.ofNat n, r)
    else match r with
      | a :: b :: r' => if a = '\\' ∧ b = 'u' ∧ n < 56320 then
          match hex4 r' with
          | some (m, r'') => if 56320 ≤ m ∧ m < 57344 then some (Char.ofNat (65536 + (n - 55296) * 1024 + (m - 56320)), r'') else none
          | none => none
        else none
      | _ => none

/-- one character of a string literal (not the closing quote); raw control characters are refused (JSON library; used in itree_json_serialize.py 420-454) -/
def strChar : List Char → Option (Char × List Char)
  | [] => none
  | c :: r =>
    if c = '\\' then match r with
      | [] => none
      | d :: r' =>
        if d = 'u' then uEsc r'
        else if d = '"' then some ('"', r') else if d = '\\' then some ('\\', r') else if d = '/' then some ('/', r')
        else if d = 'n' then some ('\n', r') else if d = 'r' then some ('\r', r') else if d = 't' then some ('\t', r')
        else if d = 'b' then some ('\x08', r') else if d = 'f' then some ('\x0c', r') else none
    else if c.toNat < 32 then none else some (c, r)

/-- the rest of a string literal after the opening quote (JSON library; used in itree_json_serialize.py 420-454) -/
def strBody : Nat → List Char → Option (List Char × List Char)
  | 0, _ => none
  | n + 1, s => match s with
    | [] => none
    | c :: r => if c = '"' then some ([], r) else
      match strChar (c :: r) with
      | none => none
      | some (d, r') => (strBody n r').map fun p => (d :: p.1, p.2)

/-- characters of a number (JSON library; used in itree_json_serialize.py 420-454) -/
def isNumChar (c : Char) : Bool := isDigit c || c == '-' || c == '+' || c == '.' || c == 'e' || c == 'E'

/-- `(-?(0|[1-9]\d*))`: is this an integer literal without sign (JSON library; used in itree_json_serialize.py 420-454) -/
def natLit : List Char → Bool
  | [] => false
  | c :: r => isDigit c && r.all isDigit && (c != '0' || r.isEmpty)

/-- an exponent part (or nothing) (JSON library; used in itree_json_serialize.py 420-454) -/
def expLit : List Char → Bool
  | [] => true
  | c :: r => (c == 'e' || c == 'E') && (match r with
    | [] => false
    | d :: r' => if d == '+' || d == '-' then !r'.isEmpty && r'.all isDigit else r.all isDigit)

/-- fraction and exponent parts, at least one of them (JSON library; used in itree_json_serialize.py 420-454) -/
def fracLit : List Char → Bool
  | [] => false
  | c :: r => if c == '.' then !(r.takeWhile isDigit).isEmpty && expLit (r.dropWhile isDigit) else expLit (c :: r)

/-- a number literal without sign: integer or float (JSON library; used in itree_json_serialize.py 420-454) -/
def numTok (t : List Char) : Option Bool :=
  if natLit t then some true
  else if natLit (t.takeWhile isDigit) && fracLit (t.dropWhile isDigit) then some false else none

/-- the value of a number token (JSON library; used in itree_json_serialize.py 420-454) -/
def numVal (t : List Char) : Option J :=
  match t with
  | [] => none
  | c :: r =>
    if c = '-' then match numTok r with
      | some true => (pyNat r).map fun (k : Nat) => J.int (-(k : Int))
      | some false => some (.flt t)
      | none => none
    else match numTok t with
      | some true => (pyNat t).map fun (k : Nat) => J.int (k : Int)
      | some false => some (.flt t)
      | none => none

/-- a word at the beginning (JSON library; used in itree_json_serialize.py 420-454) -/
def kw (w : List Char) (j : J) (s : List Char) : Option (J × List Char) := if w.isPrefixOf s then some (j, s.drop w.length) else none

/-- a literal that is no string, array or object (JSON library; used in itree_json_serialize.py 420-454) -/
def parseScalar (s : List Char) : Option (J × List Char) :=
  match s with
  | [] => none
  | c :: r =>
    if c = 'n' then kw ['n', 'u', 'l', 'l'] .null s
    else if c = 't' then kw ['t', 'r', 'u', 'e'] (.bool true) s
    else if c = 'f' then kw ['f', 'a', 'l', 's', 'e'] (.bool false) s
    else if c = 'I' then kw ['I', 'n', 'f', 'i', 'n', 'i', 't', 'y'] .inf s
    else if c = 'N' then kw ['N', 'a', 'N'] .nan s
    else if c = '-' && r.head? == some 'I' then kw ['-', 'I', 'n', 'f', 'i', 'n', 'i', 't', 'y'] .ninf s
    else (numVal (s.takeWhile isNumChar)).map fun j => (j, s.dropWhile isNumChar)

mutual
/-- one value at the beginning of the text; the number bounds the nesting (JSON library; used in itree_json_serialize.py 420-454) -/
def parseVal : Nat → List Char → Option (J × List Char)
  | 0, _ => none
  | n + 1, s => match skipWs s with
    | [] => none
    | c :: r =>
      if c = '[' then
        (match skipWs r with
        | [] => none
        | d :: r' => if d = ']' then some (.arr [], r') else (parseElems n (d :: r')).map fun p => (.arr p.1, p.2))
      else if c = '{' then
        (match skipWs r with
        | [] => none
        | d :: r' => if d = '}' then some (.obj [], r') else (parseMems n (d :: r')).map fun p => (.obj p.1, p.2))
      else if c = '"' then (strBody (r.length + 1) r).map fun p => (.str p.1, p.2)
      else parseScalar (c :: r)
/-- the elements of an array up to the closing bracket (JSON library; used in itree_json_serialize.py 420-454) -/
def parseElems : Nat → List Char → Option (List J × List Char)
  | 0, _ => none
  | n + 1, s => match parseVal n s with
    | none => none
    | some (v, r) => match skipWs r with
      | [] => none
      | d :: r' => if d = ',' then (parseElems n r').map fun p => (v :: p.1, p.2) else if d = ']' then some ([v], r') else none
/-- the members of an object up to the closing brace (JSON library; used in itree_json_serialize.py 420-454) -/
def parseMems : Nat → List Char → Option (List (List Char × J) × List Char)
  | 0, _ => none
  | n + 1, s => match skipWs s with
    | [] => none
    | q :: r0 => if q = '"' then
        (match strBody (r0.length + 1) r0 with
        | none => none
        | some (k, r1) => match skipWs r1 with
          | [] => none
          | col :: r2 => if col = ':' then
              (match parseVal n r2 with
              | none => none
              | some (v, r) => match skipWs r with
                | [] => none
                | d :: r' => if d = ',' then (parseMems n r').map fun p => ((k, v) :: p.1, p.2) else if d = '}' then some ([(k, v)], r') else none)
            else none)
      else none
end

/-- `JSON.loads(text)`: one value and nothing else (JSON library; used in itree_json_serialize.py 420-454) -/
def loads (s : List Char) : Option J :=
  match parseVal (s.length + 1) s with
  | some (j, r) => if skipWs r = [] then some j else none
  | none => none

/-- `JSON.dumps(j)` (JSON library; used in itree_json_serialize.py 266-311) -/
def dumps (st : Style) (j : J) : List Char := pr st 0 j

end Json
