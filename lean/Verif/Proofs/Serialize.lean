import Verif.Proofs.Header
import Verif.Proofs.Load2
import Verif.Spec.StdNames
/-
Putting dump and load together.
-/
namespace ITree

open Json (J PV Env SErr Style Supported Txt Elems)

theorem supported_of {N : Names} {E : Env} {h : Heap} {T : Tree} (R : Rep h T) :
    (∀ y ∈ T.ids, Supported E (N.tagPV (h.tag y)) ∧ Supported E (N.valPV (h.node y).value) ∧ LinkOK N E (h.flags y) (h.node y).link) → T.shape.supported N E := by
  induction T using Tree.ind with
  | H i t v f l ks ih =>
    intro H
    simp only [Tree.ids_node, List.mem_cons, Tree.mem_idsL] at H
    obtain ⟨e1, e2, e3, e4, -⟩ := id R
    have := H i (.inl rfl)
    rw [e1, e2, e3, e4] at this
    simp only [Tree.shape, Shape.supported, shapeL_eq]
    refine ⟨this.1, this.2.1, this.2.2, (supportedL_iff N E _).2 fun k hk => ?_⟩
    obtain ⟨k, hk', rfl⟩ := List.mem_map.1 hk
    clear hk; have hk := hk'
    exact ih k hk (R.kid hk) fun y hy => H y (.inr ⟨k, hk, hy⟩)

theorem closedL_iff (g : Flags) (l : List Shape) : Shape.closedL g l ↔ ∀ k ∈ l, k.closed g := by
  induction l with
  | nil => simp [Shape.closedL]
  | cons k ks ih => simp [Shape.closedL, ih]

theorem closed_of {h : Heap} {T : Tree} (R : Rep h T) : ∀ {g : Flags}, h.flags T.id ||| g = h.flags T.id → (∀ y ∈ T.ids, keptLink (h.flags y) (h.node y).link = (h.node y).link) →
    (∀ y ∈ T.ids, ∀ c ∈ h.kids y, h.flags c ||| (h.flags y &&& Flags.deepMask) = h.flags c) → T.shape.closed g := by
  induction T using Tree.ind with
  | H i t v f l ks ih =>
    intro g hg hl hf
    obtain ⟨e1, e2, e3, e4, e5, -⟩ := id R
    have hi : i ∈ (Tree.node i t v f l ks).ids := by simp [Tree.ids_node]
    have sub : ∀ k ∈ ks, ∀ y ∈ k.ids, y ∈ (Tree.node i t v f l ks).ids := fun k hk y hy => by
      simp only [Tree.ids_node, List.mem_cons, Tree.mem_idsL]; exact .inr ⟨k, hk, hy⟩
    simp only [Tree.shape, Shape.closed, shapeL_eq]
    refine ⟨by rw [← e3]; exact hg, by have := hl i hi; rw [e3, e4] at this; exact this, (closedL_iff _ _).2 fun k hk => ?_⟩
    obtain ⟨k, hk', rfl⟩ := List.mem_map.1 hk
    clear hk; have hk := hk'
    refine ih k hk (R.kid hk) ?_ (fun y hy => hl y (sub k hk y hy)) (fun y hy c hc => hf y (sub k hk y hy) c hc)
    have := hf i hi k.id (by rw [e5]; exact List.mem_map_of_mem hk)
    rw [e3] at this; exact this

theorem Shape.or_or (f g : Flags) (s : Shape) (hg : f ||| g = f) : (s.or f).or g = s.or f := by
  induction s using Shape.ind with
  | H t v e l ks ih =>
    simp only [Shape.or, orL_eq, List.map_map, Shape.node.injEq, true_and]
    refine ⟨by rw [BitVec.or_assoc, hg], ?_⟩
    apply List.map_congr_left
    intro k hk
    exact ih k hk

theorem closed_restored (s : Shape) : ∀ {g : Flags}, g &&& Flags.deepMask = g → s.closed g → s.restored.or g = s := by
  induction s using Shape.ind with
  | H t v f l ks ih =>
    intro g hg hc
    obtain ⟨c1, c2, c3⟩ := hc
    simp only [Shape.restored, Shape.or, c1, c2, Shape.node.injEq, true_and, orL_eq, restoredL_eq, List.map_map]
    have hd : (f &&& Flags.deepMask) ||| g = f &&& Flags.deepMask := by
      exact (show ∀ f g : Flags, g &&& Flags.deepMask = g → f ||| g = f → (f &&& Flags.deepMask) ||| g = f &&& Flags.deepMask by decide +kernel) f g hg c1
    rw [← List.map_id ks]
    simp only [List.map_map]
    apply List.map_congr_left
    intro k hk
    have e := ih k hk (g := f &&& Flags.deepMask) (by rw [BitVec.and_assoc, BitVec.and_self]) ((closedL_iff _ _).1 c3 k hk)
    simp only [Function.comp, id]
    rw [Shape.or_or _ _ _ hd, e]

/-- without links both forms are the same -/
theorem restored_loaded {h : Heap} {T : Tree} (R : Rep h T) : (∀ y ∈ T.ids, (h.node y).link = none) → T.shape.restored = T.shape.loaded := by
  induction T using Tree.ind with
  | H i t v f l ks ih =>
    intro H
    simp only [Tree.ids_node, List.mem_cons, Tree.mem_idsL] at H
    obtain ⟨e1, e2, e3, e4, -⟩ := id R
    have hl := H i (.inl rfl)
    rw [e4] at hl
    subst hl
    simp only [Tree.shape, Shape.restored, Shape.loaded, Option.map_none, ite_self, shapeL_eq, restoredL_eq, loadedL_eq, List.map_map]
    congr 2
    apply List.map_congr_left
    intro k hk
    exact ih k hk (R.kid hk) fun y hy => H y (.inr ⟨k, hk, hy⟩)

/-- without links -/
theorem closed_loaded {h : Heap} {T : Tree} (R : Rep h T) (hl : ∀ y ∈ T.ids, (h.node y).link = none)
    (hf : ∀ y ∈ T.ids, ∀ c ∈ h.kids y, h.flags c ||| (h.flags y &&& Flags.deepMask) = h.flags c) : T.shape.loaded = T.shape := by
  have C : T.shape.closed 0#6 := closed_of R (by simp) (fun y hy => by rw [hl y hy]; simp [keptLink]) hf
  have e := closed_restored _ (g := 0#6) (by decide) C
  rwa [Shape.or_zero, restored_loaded R hl] at e

theorem Made.start {ms : ModelSet} {h : Heap} (H : Reach ms h) : Made ms h h [] := ⟨H, Frame.refl _ _ _, id, by simp, by simp⟩

/-! ### texts that are refused -/

/-- a document starting with an opening bracket and a first element -/
theorem parse_first {j : J} {s : List Char} (h : Txt j s) (r : List Char) (n : Nat) (hn : s.length + 1 ≤ n) :
    Json.parseVal (n + 2) ('[' :: '\n' :: (s ++ ',' :: r)) = ((Json.parseElems n r).map fun p => (.arr (j :: p.1), p.2)) := by
  obtain ⟨c, r0, e, hw, h1, h2⟩ := h.head
  have P := h.parse n (',' :: r) (by omega) (Json.stops_comma r)
  have e2 : Json.skipWs ('\n' :: (s ++ ',' :: r)) = c :: (r0 ++ ',' :: r) := by
    rw [e]; simp [Json.skipWs, Json.isWs]; simp [Json.skipWs, hw] at *
  rw [e, List.cons_append] at P
  have e3 : Json.skipWs ('[' :: '\n' :: (s ++ ',' :: r)) = '[' :: '\n' :: (s ++ ',' :: r) := Json.skipWs_cons (by decide)
  rw [Json.parseVal, e3]
  simp only [if_true, e2, if_neg h1]
  rw [Json.parseElems, P]
  simp [Json.skipWs, Json.isWs, Option.map_map]
  rfl

/-- a data section that ends with `,\n\n]` is no JSON text: `loads` fails -/
theorem childless_text_bad {σ ι : Type} (B : Builder σ ι) (s : σ) (sha : List Char → List Char) (N : Names) (E : Env) (st : Style) (typeName : List Char) (addHeader calcHash chk : Bool) {j : J} (e2 : j.ok) :
    loadsText B sha N E chk s (if addHeader then withHeader st typeName (if calcHash then some (sha ('[' :: '\n' :: (Json.dumps st j ++ ',' :: '\n' :: ['\n', ']']))) else none)
      ('[' :: '\n' :: (Json.dumps st j ++ ',' :: '\n' :: ['\n', ']'])) else '[' :: '\n' :: (Json.dumps st j ++ ',' :: '\n' :: ['\n', ']'])) = (s, .error .json) := by
  -- the array is not closed properly
  have bad : ∀ (n : Nat) (r : List Char), (Json.dumps st j).length + 1 ≤ n → Json.parseVal (n + 2) ('[' :: '\n' :: (Json.dumps st j ++ ',' :: '\n' :: '\n' :: ']' :: r)) = none := by
    intro n r hn
    rw [show Json.dumps st j = Json.pr st 0 j from rfl, parse_first (Json.pr_txt st j 0 e2) _ n hn]
    obtain ⟨m, rfl⟩ : ∃ m, n = m + 1 := ⟨n - 1, by omega⟩
    cases m <;> simp [Json.parseElems, Json.parseVal, Json.skipWs, Json.isWs, Json.parseScalar, Json.isNumChar, MSets.isDigit, Json.numVal]
  generalize hdat : ('[' :: '\n' :: (Json.dumps st j ++ ',' :: '\n' :: ['\n', ']']) : List Char) = data
  have hlen : (Json.dumps st j).length + 6 = data.length := by rw [← hdat]; simp
  have : Json.loads (if addHeader then withHeader st typeName (if calcHash then some (sha data) else none) data else data) = none := by
    cases addHeader with
    | false =>
      have := bad (data.length - 1) [] (by omega)
      rw [show data.length - 1 + 2 = data.length + 1 by omega] at this
      simp only [Bool.false_eq_true, if_false, Json.loads]
      rw [← hdat] at this ⊢
      rw [this]
    | true =>
      simp only [if_true]
      generalize (if calcHash then some (sha data) else none) = hash
      have hl2 : (withHeader st typeName hash data).length = (Json.dumps st (headerJson typeName hash)).length + data.length + 5 := by simp [withHeader]; omega
      have p := parse_first (Json.pr_txt st _ 0 (header_ok typeName hash)) ('\n' :: (data ++ [']'])) ((withHeader st typeName hash data).length - 1) (by simp only [Json.dumps] at hl2; omega)
      rw [show (withHeader st typeName hash data).length - 1 + 2 = (withHeader st typeName hash data).length + 1 by omega] at p
      have p2 : Json.parseElems ((withHeader st typeName hash data).length - 1) ('\n' :: (data ++ [']'])) = none := by
        obtain ⟨m, hm⟩ : ∃ m, (withHeader st typeName hash data).length - 1 = m + 3 := ⟨(withHeader st typeName hash data).length - 4, by omega⟩
        rw [hm, Json.parseElems]
        have b := bad m [']'] (by omega)
        have e : '\n' :: (data ++ [']']) = ['\n'] ++ (data ++ [']']) := rfl
        rw [e, Json.parseVal_ws _ (by simp [Json.ws, Json.isWs])]
        have e' : data ++ [']'] = '[' :: '\n' :: (Json.dumps st j ++ ',' :: '\n' :: '\n' :: ']' :: [']']) := by rw [← hdat]; simp
        rw [e', b]
      rw [p2] at p
      simp only [Json.loads]
      have e3 : withHeader st typeName hash data = '[' :: '\n' :: (Json.pr st 0 (headerJson typeName hash) ++ ',' :: '\n' :: (data ++ [']'])) := rfl
      rw [e3] at p ⊢
      rw [p]; rfl
  simp only [loadsText, loadCheck, this]

end ITree
