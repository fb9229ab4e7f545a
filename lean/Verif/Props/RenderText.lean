import Verif.Props.Render
/-
C36: the text of one line of the rendering, spelled out without the helpers of the model.
-/
namespace ITree

/-- the flags a reader is shown: the loaded links mark is added to a loaded link root; nothing is shown when no flag but `linked` is set -/
def specFlags (f : Flags) (loaded : Bool) : Option Flags :=
  if loaded = true ∧ f.has Flags.linkRoot = true then some (f ||| Flags.loadLinks)
  else if f = 0#6 ∨ f = Flags.linked then none
  else some f

/-- `value=…`, if there is a value -/
def specValue (P : Reprs) : Val → List (List Char)
  | .noValue => []
  | v => ["value=".toList ++ P.val v]
/-- `link=…`, if there is a link with a file or a path -/
def specLink (P : Reprs) : Option LinkSt → List (List Char)
  | none => []
  | some l => if l.file.getD "" = "" ∧ l.path = [] then [] else ["link=iTLink(".toList ++ P.file l.file ++ ",".toList ++ P.path l.path ++ ")".toList]
/-- `flags=…`, if there is something to show -/
def specFlagText : Option Flags → List (List Char)
  | none => []
  | some f => ["flags=".toList ++ binStr f]

/-- the arguments a reader sees between the brackets -/
def specArgs (P : Reprs) (T : Tree) : List (List Char) :=
  (if T.tag = .noTag then [] else [P.tag T.tag]) ++ specValue P T.value ++ specLink P T.link ++ specFlagText (specFlags T.flags (T.link.elim false (·.loaded)))

/-- arguments separated by comma and space -/
def commaSpace : List (List Char) → List Char
  | [] => []
  | [a] => a
  | a :: b :: r => a ++ ", ".toList ++ commaSpace (b :: r)

/-- the text of an item -/
def specItem (P : Reprs) (T : Tree) : List Char := P.cls ++ "(".toList ++ commaSpace (specArgs P T) ++ ")\n".toList

/-- value of a text of binary digits -/
def ofBits (l : List Char) : Nat := l.foldl (fun n c => 2 * n + if c = '1' then 1 else 0) 0

theorem shown_spec (f : Flags) (loaded : Bool) :
    (if (f ≠ 0#6 ∨ loaded = true) ∧ shownFlags f loaded ≠ 0#6 then some (shownFlags f loaded) else none) = specFlags f loaded := by
  revert f loaded
  show ∀ (f : BitVec 6) (loaded : Bool), _
  decide +kernel

/-- the separators dropped at the end -/
def dropSep (d : List (List Char)) : List (List Char) :=
  let e := if d.getLast? = some [',', ' '] then d.dropLast else d
  if e.getLast? = some [','] then e.dropLast else e

theorem pieces_core (c : List Char) (t v l f : Option (List Char)) (hc : c.getLast? = some '(') (ht : t ≠ some [',']) (hv : v ≠ some [',']) (hl : ∀ x, l = some x → 2 ≤ x.length) (hf : ∀ x, f = some x → 3 ≤ x.length) :
    (dropSep ([c] ++ (t.elim [] fun a => [a, [',', ' ']]) ++ (v.elim [] fun a => ["value=".toList, a, [',', ' ']]) ++ (l.elim [] fun a => [a, [',', ' ']]) ++ (f.elim [] fun a => [a]))).flatten =
      c ++ commaSpace ((t.elim [] fun a => [a]) ++ (v.elim [] fun a => ["value=".toList ++ a]) ++ (l.elim [] fun a => [a]) ++ (f.elim [] fun a => [a])) := by
  have c1 : c ≠ [',', ' '] := by rintro rfl; simp at hc
  have c2 : c ≠ [','] := by rintro rfl; simp at hc
  have l2 : ∀ x, l = some x → x ≠ [','] := by rintro x h rfl; have := hl _ h; simp at this
  have f1 : ∀ x, f = some x → x ≠ [',', ' '] := by rintro x h rfl; have := hf _ h; simp at this
  have f2 : ∀ x, f = some x → x ≠ [','] := by rintro x h rfl; have := hf _ h; simp at this
  clear hc hl hf
  rcases t with _ | t <;> rcases v with _ | v <;> rcases l with _ | l <;> rcases f with _ | f <;>
    simp_all [dropSep, commaSpace]

/-- C36: the text of an item is its class name and, in brackets, its tag, `value=…`, `link=…` and `flags=…`, as far as they are there, separated by `, `; and its number first if wanted.
(No `repr` may be a bare comma.) -/
theorem C36_item_text (P : Reprs) (htag : ∀ t, P.tag t ≠ ",".toList) (hval : ∀ v, P.val v ≠ ",".toList) (natStr : Nat → List Char) (cnt : Option Nat) (T : Tree) :
    itemStr P natStr cnt T = (cnt.elim [] fun n => natStr n ++ ". ".toList) ++ specItem P T := by
  have hc : cntPieces natStr cnt = cnt.elim [] fun n => natStr n ++ ". ".toList := by cases cnt <;> rfl
  suffices h : (itemPieces P T).flatten = P.cls ++ "(".toList ++ commaSpace (specArgs P T) by
    rw [itemStr, hc, h, specItem]; simp
  have hlo : isLoaded T.link = T.link.elim false (·.loaded) := by cases T.link <;> rfl
  have hlast : ∀ x : List Char, (x ++ ['(']).getLast? = some '(' := by intro x; simp
  have ht : ∃ t : Option (List Char), (if T.tag = .noTag then [] else [P.tag T.tag, [',', ' ']]) = (t.elim [] fun a => [a, [',', ' ']]) ∧
      (if T.tag = .noTag then [] else [P.tag T.tag]) = (t.elim [] fun a => [a]) ∧ t ≠ some [','] := by
    by_cases h : T.tag = .noTag
    · exact ⟨none, by simp [h], by simp [h], by simp⟩
    · exact ⟨some (P.tag T.tag), by simp [h], by simp [h], by simpa using htag T.tag⟩
  have hv : ∃ v : Option (List Char), valuePieces P T.value = (v.elim [] fun a => ["value=".toList, a, [',', ' ']]) ∧
      specValue P T.value = (v.elim [] fun a => ["value=".toList ++ a]) ∧ v ≠ some [','] := by
    cases hx : T.value with
    | noValue => exact ⟨none, rfl, rfl, by simp⟩
    | _ => exact ⟨some (P.val _), rfl, rfl, by simpa using hval _⟩
  have hl : ∃ l : Option (List Char), linkPieces P T.link = (l.elim [] fun a => [a, [',', ' ']]) ∧
      specLink P T.link = (l.elim [] fun a => [a]) ∧
      ∀ x, l = some x → 2 ≤ x.length := by
    cases T.link with
    | none => exact ⟨none, rfl, rfl, by simp⟩
    | some l =>
      by_cases h : l.file.getD "" = "" ∧ l.path = []
      · refine ⟨none, ?_, by simp [specLink, h], by simp⟩
        have : ¬ (l.file.getD "" ≠ "" ∨ l.path ≠ []) := by rintro (h' | h'); exacts [h' h.1, h' h.2]
        simp only [linkPieces, if_neg this]; rfl
      · refine ⟨some ("link=iTLink(".toList ++ P.file l.file ++ ",".toList ++ P.path l.path ++ ")".toList), ?_, by simp [specLink, h], ?_⟩
        · have : l.file.getD "" ≠ "" ∨ l.path ≠ [] := by
            by_cases h1 : l.file.getD "" = ""
            · exact .inr fun h2 => h ⟨h1, h2⟩
            · exact .inl h1
          simp only [linkPieces, if_pos this]; rfl
        · rintro x ⟨⟩; simp
  have hf : ∃ f : Option (List Char), (if (T.flags ≠ 0#6 ∨ isLoaded T.link = true) ∧ shownFlags T.flags (isLoaded T.link) ≠ 0#6 then ["flags=".toList ++ binStr (shownFlags T.flags (isLoaded T.link))] else []) = (f.elim [] fun a => [a]) ∧
      specFlagText (specFlags T.flags (T.link.elim false (·.loaded))) = (f.elim [] fun a => [a]) ∧ ∀ x, f = some x → 3 ≤ x.length := by
    rw [← hlo, ← shown_spec T.flags (isLoaded T.link)]
    split
    · exact ⟨some _, rfl, rfl, by rintro x ⟨⟩; simp⟩
    · exact ⟨none, rfl, rfl, by simp⟩
  obtain ⟨t, ht1, ht2, ht3⟩ := ht
  obtain ⟨v, hv1, hv2, hv3⟩ := hv
  obtain ⟨l, hl1, hl2, hl3⟩ := hl
  obtain ⟨f, hf1, hf2, hf3⟩ := hf
  have := pieces_core (P.cls ++ ['(']) t v l f (hlast _) ht3 hv3 hl3 hf3
  rw [← ht1, ← ht2, ← hv1, ← hv2, ← hl1, ← hl2, ← hf1] at this
  rw [specArgs, hf2]
  rw [hf1] at this
  have hp : itemPieces P T = dropSep ([P.cls ++ ['(']] ++ (if T.tag = .noTag then [] else [P.tag T.tag, [',', ' ']]) ++ valuePieces P T.value ++ linkPieces P T.link ++ f.elim [] fun a => [a]) := by
    rw [← hf1]; rfl
  rw [hp, this]; rfl

/-- C36: the binary number of the flags shown is the flags -/
theorem C36_binary (f : Flags) : ∃ bits, binStr f = "0b".toList ++ bits ∧ ofBits bits = f.toNat ∧ (bits.head? = some '1' ∨ bits = ['0']) :=
  ⟨binDigits 6 f.toNat, rfl, by revert f; show ∀ f : BitVec 6, _; decide +kernel, by revert f; show ∀ f : BitVec 6, _; decide +kernel⟩

/-- C36: each line below the root is a space, `.  ` once per level, the mark `>>` for linked items and `> ` for others, then the text of the item. -/
theorem C36_line (P : Reprs) (htag : ∀ t, P.tag t ≠ ",".toList) (hval : ∀ v, P.val v ≠ ",".toList) (natStr : Nat → List Char) (enum : Bool) (l : PLine) :
    l.text P natStr enum = " ".toList ++ (List.replicate l.level ".  ".toList).flatten ++ (if l.item.flags.has Flags.linked then ">>".toList else "> ".toList) ++
      (if enum then natStr l.nr ++ ". ".toList else []) ++ specItem P l.item := by
  rw [PLine.text, C36_item_text P htag hval, lineHead]
  cases enum <;> cases l.item.flags.has Flags.linked <;> simp

/-- C36: nothing is shown of the flags exactly if none is set but `linked` (and it is no loaded link root) -/
theorem C36_flags (f : Flags) : specFlags f false = none ↔ f &&& ~~~ Flags.linked = 0#6 := by
  revert f; show ∀ f : BitVec 6, _; decide +kernel

example : specItem reprs0 (.node 7 (.other 3) (.int 1) (Flags.linked ||| Flags.readOnlyTree) none []) = "iTree(T3, value=1, flags=0b1001)\n".toList := by decide +kernel
example : specItem reprs0 (.node 7 .noTag .noValue 0#6 none []) = "iTree()\n".toList := by decide +kernel

end ITree
