import Verif.Proofs.Dump
/-
Text with header: parsing, version, hashed part.
-/
namespace ITree

open Json (J PV Env SErr Style Supported Txt Elems)

theorem header_ok (t : List Char) (hash : Option (List Char)) : (headerJson t hash).ok := by
  cases hash <;> simp [headerJson, Json.J.ok, Json.J.okM]

theorem withHeader_txt (st : Style) (t : List Char) (hash : Option (List Char)) {data : List Char} {j : J} (h : Txt j data) :
    Txt (.arr [headerJson t hash, j]) (withHeader st t hash data) := by
  have := Txt.arr (Elems.cons (w := ['\n']) (w' := []) (by simp [Json.ws, Json.isWs]) (Json.pr_txt st _ 0 (header_ok t hash)) (by simp [Json.ws])
    (Elems.one (w := ['\n']) (w' := []) (by simp [Json.ws, Json.isWs]) h (by simp [Json.ws])))
  simpa [withHeader, Json.dumps] using this

theorem after_cons {c : Char} (r : List Char) (h : c ≠ '}') : afterHeader (c :: r) = afterHeader r := by
  simp [afterHeader, List.isPrefixOf, Ne.symm h]

/-- no line break inside `a`: the header does not end before the quote -/
theorem after_quoted : ∀ (a r : List Char), '\n' ∉ a → afterHeader (a ++ '"' :: r) = afterHeader ('"' :: r)
  | [], r, _ => rfl
  | c :: a, r, h => by
    rw [List.cons_append, afterHeader, if_neg, after_quoted a r (fun hm => h (by simp [hm]))]
    intro hp
    match a with
    | [] => simp [List.isPrefixOf] at hp
    | [d] => simp [List.isPrefixOf] at hp
    | d :: e :: a => simp [List.isPrefixOf] at hp h; exact h.2.2.1 hp.2.2

theorem hexDigit_nl : ∀ n, n < 16 → Json.hexDigit n ≠ '\n' := by decide

theorem escChar_nl (a : Bool) (c : Char) : '\n' ∉ Json.escChar a c := by
  have u : ∀ n, '\n' ∉ Json.u4 n := by
    intro n
    simp only [Json.u4, List.mem_cons, not_or, List.not_mem_nil, not_false_eq_true, and_true]
    refine ⟨by decide, by decide, ?_, ?_, ?_, ?_⟩ <;> exact (hexDigit_nl _ (Nat.mod_lt _ (by omega))).symm
  unfold Json.escChar
  split; · decide
  split; · decide
  split; · decide
  split; · decide
  split; · decide
  split; · decide
  split; · decide
  split; · exact u _
  split
  · split
    · exact u _
    · simp [u]
  · next h => simp; exact fun e => by subst e; simp_all

theorem after_strLit (a : Bool) (s r : List Char) : afterHeader (Json.strLit a s ++ r) = afterHeader r := by
  have hn : '\n' ∉ s.flatMap (Json.escChar a) := by
    intro hm
    obtain ⟨c, _, hc⟩ := List.mem_flatMap.1 hm
    exact escChar_nl a c hc
  have := after_quoted _ r hn
  simp only [Json.strLit, List.cons_append, List.append_assoc, List.nil_append]
  rw [after_cons _ (by decide), this, after_cons _ (by decide)]

theorem after_ws : ∀ {w : List Char} (r : List Char), Json.ws w → afterHeader (w ++ r) = afterHeader r
  | [], r, _ => rfl
  | c :: w, r, h => by
    have hc := h c (by simp)
    rw [List.cons_append, after_cons, after_ws r (fun d hd => h d (by simp [hd]))]
    rintro rfl; exact absurd hc (by decide)

theorem after_colon (st : Style) (r : List Char) : afterHeader (st.colon ++ r) = afterHeader r := by
  obtain ⟨w, hw, e⟩ := Json.colon_eq st
  rw [e, List.cons_append, after_cons _ (by decide), after_ws _ hw]

theorem after_header (st : Style) (t : List Char) (hash : Option (List Char)) (data : List Char) : afterHeader (withHeader st t hash data) = some (data ++ [']']) := by
  have fin : ∀ r, afterHeader ('}' :: ',' :: '\n' :: r) = some r := by intro r; simp [afterHeader, List.isPrefixOf]
  cases hash <;>
  · simp only [withHeader, headerJson, Json.dumps, Json.pr, Json.prMems, List.append_assoc, List.cons_append, List.nil_append]
    rw [after_cons _ (by decide), after_cons _ (by decide), after_cons _ (by decide)]
    simp only [after_ws _ (Json.nl_ws st _), after_strLit, after_colon, after_cons _ (show ',' ≠ '}' by decide), fin]

theorem hashedPart_header (st : Style) (t : List Char) (hash : Option (List Char)) (data : List Char) : hashedPart (withHeader st t hash data) = data := by
  simp [hashedPart, after_header]

theorem version_header (t : List Char) (hash : Option (List Char)) : ∃ hd, headerJson t hash = .obj hd ∧ objGet "VERSION".toList hd = some (.str "2.0.0".toList) ∧
    objGet "HASH".toList hd = hash.map J.str := by
  cases hash <;> refine ⟨_, rfl, ?_, ?_⟩ <;> simp [objGet]

theorem major_ok : majorVersion "2.0.0".toList = .ok "2.0".toList := by decide

/-- the checks of `loads` pass for an unchanged text with header -/
theorem loadCheck_header (sha : List Char → List Char) (chk : Bool) (st : Style) (t : List Char) (calcHash : Bool) {data : List Char} {rows : List J} (h : Txt (.arr rows) data) :
    loadCheck sha chk (withHeader st t (if calcHash then some (sha data) else none) data) = .ok rows := by
  have T := withHeader_txt st t (if calcHash then some (sha data) else none) h
  have L := Json.loads_txt T (w := []) (w' := []) (by simp [Json.ws]) (by simp [Json.ws])
  simp only [List.nil_append, List.append_nil] at L
  obtain ⟨hd, e1, e2, e3⟩ := version_header t (if calcHash then some (sha data) else none)
  unfold loadCheck
  rw [L, e1]
  simp only [e2, major_ok, ne_eq, not_true_eq_false, if_false, e3, hashedPart_header]
  cases chk <;> cases calcHash <;> simp

theorem loadCheck_plain (sha : List Char → List Char) (chk : Bool) {data : List Char} {rows : List J} (h : Txt (.arr rows) data) (hr : ∀ hd r, rows ≠ [.obj hd, r]) :
    loadCheck sha chk data = .ok rows := by
  have L := Json.loads_txt h (w := []) (w' := []) (by simp [Json.ws]) (by simp [Json.ws])
  simp only [List.nil_append, List.append_nil] at L
  unfold loadCheck
  rw [L]
  split
  · next heq => simp at heq
  · next hd d heq => simp only [Option.some.injEq, J.arr.injEq] at heq; exact absurd heq (hr hd d)
  · next heq => simp at heq; rw [heq]
  · next h1 heq => rw [← Option.some.inj heq] at h1; exact absurd rfl (h1 rows)

theorem rowsOf_noHeader {N : Names} {E : Env} {d : Nat} {ks : List Shape} {rows : List J} (h : RowsOf N E d ks rows) : ∀ hd r, rows ≠ .obj hd :: r := by
  cases h with
  | nil => simp
  | @cons _ k _ _ _ _ hr _ _ =>
    obtain ⟨t, v, f, l, kk⟩ := k
    obtain ⟨fidx, js, e1, -⟩ := hr
    rw [e1]; simp

end ITree
