import Verif.Model.Size
import Verif.Props.Equal
import Verif.Props.Positions
import Verif.Props.Lookup
import Verif.Proofs.DeepMut
/-
C58: size comparisons and counters; C59: `equal`; C60: `force_cache_update`.
-/
namespace ITree
variable {ms : ModelSet} {h : Heap}

/-! ### C58 -/

theorem lookup_mem {β : Type} {F : List (Tag × β)} {t : Tag} {l : β} (hl : F.lookup t = some l) : (t, l) ∈ F := by
  induction F with
  | nil => simp at hl
  | cons e F ih =>
    obtain ⟨a, b⟩ := e
    rw [List.lookup_cons] at hl
    by_cases hta : t = a
    · subst hta; simp at hl; simp [hl]
    · have : (t == a) = false := by simpa using hta
      rw [this] at hl
      exact List.mem_cons_of_mem _ (ih hl)

/-- C58. The four comparisons order the items by their number of children: exactly one of `t < u`, `t > u`, "same number" holds, `<=` and `>=` are the negations, and all are transitive. -/
theorem C58_order (h : Heap) (a b c : Id) :
    (ltItem h a b = true ↔ (h.kids a).length < (h.kids b).length) ∧ (gtItem h a b = ltItem h b a) ∧ (leItem h a b = !gtItem h a b) ∧ (geItem h a b = !ltItem h a b) ∧
    (leItem h a b = true → leItem h b c = true → leItem h a c = true) ∧ (ltItem h a b = true → leItem h b c = true → ltItem h a c = true) ∧
    (leItem h a b = true ∧ geItem h a b = true ↔ (h.kids a).length = (h.kids b).length) := by
  have l1 : ∀ x y, ltItem h x y = true ↔ (h.kids x).length < (h.kids y).length := fun x y => decide_eq_true_iff
  have l2 : ∀ x y, leItem h x y = true ↔ (h.kids x).length ≤ (h.kids y).length := fun x y => decide_eq_true_iff
  have l3 : ∀ x y, gtItem h x y = true ↔ (h.kids y).length < (h.kids x).length := fun x y => decide_eq_true_iff
  have l4 : ∀ x y, geItem h x y = true ↔ (h.kids y).length ≤ (h.kids x).length := fun x y => decide_eq_true_iff
  refine ⟨l1 a b, ?_, ?_, ?_, ?_, ?_, ?_⟩
  · rw [Bool.eq_iff_iff, l1, l3]
  · rw [Bool.eq_iff_iff, Bool.not_eq_true', ← Bool.not_eq_true, l2, l3]; omega
  · rw [Bool.eq_iff_iff, Bool.not_eq_true', ← Bool.not_eq_true, l1, l4]; omega
  · rw [l2, l2, l2]; omega
  · rw [l1, l2, l1]; omega
  · rw [l2, l4]; omega

example : ltItem demo 1 0 = true ∧ geItem demo 0 1 = true ∧ ltItem demo 2 3 = false := by decide

/-- C58, C32. Items that are `==` are never `<` or `>`. -/
theorem C58_C32_equal_not_less (H : Reach ms h) {a b : Id} (he : h.eqItem a b = true) : ltItem h a b = false ∧ gtItem h a b = false := by
  have : (h.kids a).length = (h.kids b).length := by
    simp only [Heap.eqItem, Bool.or_eq_true, beq_iff_eq] at he
    rcases he with rfl | he
    · rfl
    · have ra := tree_rep H.core.wf H.core.forest a
      have rb := tree_rep H.core.wf H.core.forest b
      simp only [Tree.pyEq, Bool.and_eq_true, beq_iff_eq] at he
      have e1 := ra.kids; have e2 := rb.kids
      rw [tree_id] at e1 e2
      rw [e1, e2, List.length_map, List.length_map]; exact he.1.1.2
  simp [ltItem, gtItem, lenOf, this]

/-- C58, the code against the expectation: `t <= u` and `u <= t` do not make the two items equal. -/
theorem C58_antisymm_wrong : leItem demo 2 3 = true ∧ leItem demo 3 2 = true ∧ demo.tag 2 ≠ demo.tag 3 ∧ demo.eqItem 2 3 = false := by
  refine ⟨by decide, by decide, by decide, ?_⟩
  have e2 : (demo.tree 2).tag = .other 2 := by decide
  have e3 : (demo.tree 3).tag = .other 1 := by decide
  simp [Heap.eqItem, Tree.pyEq, e2, e3]

/-- C58. `t.filtered_len(f)` is the number of children for which `f` holds. -/
theorem C58_filtered_len (h : Heap) (p : Id) (f : Id → Bool) : childrenLen h p f = (h.kids p).countP f := by
  have key : ∀ (l : List Id) (n : Nat), l.foldl (fun n _ => n + 1) n = n + l.length := by
    intro l
    induction l with
    | nil => intro n; simp
    | cons x xs ih => intro n; simp only [List.foldl_cons, ih, List.length_cons]; omega
  rw [childrenLen, key, List.countP_eq_length_filter]; simp

/-- C58. `t.tag_number` is the number of different tags among the children (after every allowed history). -/
theorem C58_tag_number_partial (H : Reach ms h) (p : Id) : ∃ L : List Tag, L.Nodup ∧ (∀ t, t ∈ L ↔ ∃ c ∈ h.kids p, h.tag c = t) ∧ tagNumber h p = L.length := by
  by_cases hk : h.kids p = []
  · exact ⟨[], by simp, by simp [hk], by simp [tagNumber, hk]⟩
  · obtain ⟨F, hF, O⟩ := H.core.wf.fams_ok p hk
    refine ⟨F.map Prod.fst, O.keys, fun t => ?_, by simp [tagNumber, hk, hF]⟩
    have hm : t ∈ F.map Prod.fst ↔ F.get? t ≠ none := by
      constructor
      · intro ht
        obtain ⟨e, he, rfl⟩ := List.mem_map.1 ht
        rw [Fams.get?, mem_lookup O.keys he]; simp
      · intro hne
        cases hl : F.get? t with
        | none => exact (hne hl).elim
        | some l => exact List.mem_map.2 ⟨(t, l), lookup_mem hl, rfl⟩
    rw [hm, O.get]
    constructor
    · intro hne
      by_cases hv : famView h p t = []
      · simp [hv] at hne
      · obtain ⟨c, hc⟩ := List.exists_mem_of_ne_nil _ hv
        have := List.mem_filter.1 hc
        exact ⟨c, this.1, by simpa using this.2⟩
    · rintro ⟨c, hc, rfl⟩
      have : c ∈ famView h p (h.tag c) := List.mem_filter.2 ⟨hc, by simp⟩
      rw [if_neg (List.ne_nil_of_mem this)]; simp

example : ∃ L : List Tag, L.Nodup ∧ (∀ t, t ∈ L ↔ ∃ c ∈ demo.kids 0, demo.tag c = t) ∧ tagNumber demo 0 = L.length := C58_tag_number_partial demo_tidy.reach 0
example : tagNumber demo 0 = 3 ∧ childrenLen demo 0 (fun c => c < 4) = 3 := by decide

/-- C58, the code against the claim: after replacing the only child with a tag, the tag is still counted. -/
theorem C58_tag_number_wrong : (let r := setItem demo 0 (.int 1) (.item 6)
    r.2 = .ok 6 ∧ (r.1.kids 0).map r.1.tag = [.other 1, .other 1, .other 1, .noTag] ∧ tagNumber r.1 0 = 3) := by decide

/-! ### C59 -/

/-- the trees show the same flags wherever both have an item when they are walked in parallel -/
def SameFlags (A B : Tree) : Prop := A.flags = B.flags ∧ ∀ s ∈ A.deep.zip B.deep, s.1.flags = s.2.flags

theorem equalLoop_false (l : List (Tree × Tree)) : equalLoop false l = l.all fun s => pairEq s.1 s.2 := by
  induction l with
  | nil => rfl
  | cons s l ih =>
    obtain ⟨a, b⟩ := s
    simp only [equalLoop, Bool.false_and, Bool.false_eq_true, if_false, List.all_cons, pairEq, ih]
    cases argsEq a b <;> cases valueEqual a.value b.value <;> simp

theorem equalLoop_true (l : List (Tree × Tree)) : equalLoop true l = (l.all (fun s => pairEq s.1 s.2) && l.all fun s => s.1.flags == s.2.flags) := by
  induction l with
  | nil => rfl
  | cons s l ih =>
    obtain ⟨a, b⟩ := s
    simp only [equalLoop, Bool.true_and, List.all_cons, pairEq, ih]
    by_cases hf : a.flags = b.flags
    · simp only [hf, bne_self_eq_false, Bool.false_eq_true, if_false, beq_self_eq_true, Bool.true_and]
      cases argsEq a b <;> cases valueEqual a.value b.value <;> simp
    · have h1 : (a.flags != b.flags) = true := by simpa using hf
      have h2 : (a.flags == b.flags) = false := by simpa using hf
      simp [h1, h2]

/-- C59. `t.equal(u)` is the same as `t == u`. -/
theorem C59_C32_equal (h : Heap) (a b : Id) : equalItem h a b false = h.eqItem a b := by
  unfold equalItem Heap.eqItem
  by_cases hab : a = b
  · simp [hab]
  · have hb : (a == b) = false := by simpa using hab
    rw [if_neg hab, hb, Bool.false_or, Tree.pyEq, equalLoop_false]
    simp only [Bool.false_and, Bool.false_eq_true, if_false]
    by_cases h1 : (h.tree a).tag = (h.tree b).tag <;> by_cases h2 : (h.tree a).kids.length = (h.tree b).kids.length <;>
      cases h3 : valueEqual (h.tree a).value (h.tree b).value <;> simp [h1, h2]

/-- C59. `t.equal(u, check_flags=True)` holds exactly when `t == u` and the flags of the two items and of all pairs of items met when walking both trees in parallel are the same. -/
theorem C59_C32_equal_flags (H : Reach ms h) (a b : Id) : equalItem h a b true = true ↔ h.eqItem a b = true ∧ SameFlags (h.tree a) (h.tree b) := by
  have hfa : ∀ x, (h.tree x).flags = h.flags x := by
    intro x; rw [tree_data h H.core x]; rfl
  rw [← C59_C32_equal]
  unfold equalItem SameFlags
  rw [hfa, hfa]
  by_cases hab : a = b
  · subst hab
    simp only [if_true, true_and, true_iff]
    intro s hs
    obtain ⟨n, hn⟩ := List.getElem?_of_mem hs
    rw [List.getElem?_zip_eq_some] at hn
    obtain ⟨e1, e2⟩ := hn
    rw [e1] at e2; simp only [Option.some.injEq] at e2; rw [e2]
  · simp only [if_neg hab, equalLoop_true, equalLoop_false, Bool.true_and, Bool.false_and, Bool.false_eq_true, if_false]
    by_cases hf : h.flags a = h.flags b
    · simp only [hf, bne_self_eq_false, Bool.false_eq_true, if_false, true_and]
      split
      · simp
      · simp only [Bool.and_eq_true, List.all_eq_true, beq_iff_eq]
    · have h1 : (h.flags a != h.flags b) = true := by simpa using hf
      simp [h1, hf]

/-- two trees differing in the flags of one child only -/
def flagHeap : Heap := run ms0 Heap.empty [.new (.other 0) .noValue [] 0#6, .new (.other 1) .noValue [] 0#6, .append 0 (.item 1),
  .new (.other 0) .noValue [] 0#6, .new (.other 1) .noValue [] Flags.readOnlyValue, .append 2 (.item 3)]
theorem flagHeap_reach : Reach ms0 flagHeap := (tidy_run _ .empty (by decide +kernel)).reach

/-- `==` does not see the flags, `equal(…, check_flags=True)` does -/
example : flagHeap.eqItem 0 2 = true ∧ equalItem flagHeap 0 2 true = false := by
  have e0 : flagHeap.tree 0 = .node 0 (.other 0) .noValue 0#6 none [.node 1 (.other 1) .noValue 0#6 none []] := rfl
  have e2 : flagHeap.tree 2 = .node 2 (.other 0) .noValue 0#6 none [.node 3 (.other 1) .noValue Flags.readOnlyValue none []] := rfl
  have hE : flagHeap.eqItem 0 2 = true := by
    simp [Heap.eqItem, e0, e2, Tree.pyEq, Tree.tag, Tree.kids, Tree.value, Tree.deep, Tree.preL, Tree.pre, valueEqual, pairEq, argsEq, Val.ty, Val.pyEq]
  refine ⟨hE, ?_⟩
  rw [Bool.eq_false_iff]
  intro e
  obtain ⟨_, _, hs⟩ := (C59_C32_equal_flags flagHeap_reach 0 2).1 e
  rw [e0, e2] at hs
  have := hs (.node 1 (.other 1) .noValue 0#6 none [], .node 3 (.other 1) .noValue Flags.readOnlyValue none []) (by simp [Tree.deep, Tree.preL, Tree.pre, Tree.kids])
  simp only [Tree.flags] at this
  exact absurd this (by decide)

/-! ### C60 -/

theorem writePos_spec (c : Cache) (L : List Id) : ∀ (l : List Id) (h : Heap) (i : Nat), Scannable h l → (∀ j, l[j]? = L[i + j]?) →
    (writePos c h l i).2 = .ok () ∧ CEq h (writePos c h l i).1 ∧
    (∀ d ly z, (z ∈ L → d = c → ly = L) → Fresh d h ly z → Fresh d (writePos c h l i).1 ly z) ∧ ∀ x ∈ l, Fresh c (writePos c h l i).1 L x := by
  intro l
  induction l with
  | nil => intro h i _ _; exact ⟨rfl, CEq.refl h, fun _ _ _ _ F => F, by simp⟩
  | cons y ys ih =>
    intro h i S hl
    obtain ⟨r, hr, hfz⟩ := S y (by simp)
    have hy : L[i]? = some y := by have := hl 0; simpa using this.symm
    have E : CEq h (h.setParent y (some (r.setC c i))) := CEq.setC hr c i (by omega)
    obtain ⟨a, b, d, e⟩ := ih (h.setParent y (some (r.setC c i))) (i + 1) (Scannable.ceq (fun z hz => S z (by simp [hz])) E) (by
      intro j; have := hl (j + 1); rw [List.getElem?_cons_succ] at this; rw [this]; congr 1; omega)
    simp only [writePos, hr, hfz, Bool.false_eq_true, if_false]
    refine ⟨a, E.trans b, fun dd ly z hz F => d dd ly z hz (F.write hr ly hy (fun e1 => hz (e1 ▸ List.mem_of_getElem? hy))), ?_⟩
    intro x hx
    rcases List.mem_cons.1 hx with rfl | hx
    · exact d c L x (fun _ _ => rfl) (Fresh.made hy)
    · exact e x hx

theorem writeFams_spec {p : Id} : ∀ (G : Fams) (h : Heap), Scannable h (h.kids p) → (∀ e ∈ G, e.2 = famView h p e.1) →
    (G.map Prod.fst).Nodup →
    (writeFams h G).2 = .ok () ∧ CEq h (writeFams h G).1 ∧ (∀ ly z, Fresh .abs h ly z → Fresh .abs (writeFams h G).1 ly z) ∧
    (∀ z, h.tag z ∉ G.map Prod.fst → Fresh .fam h (famView h p (h.tag z)) z → Fresh .fam (writeFams h G).1 (famView h p (h.tag z)) z) ∧
    ∀ e ∈ G, ∀ z ∈ e.2, Fresh .fam (writeFams h G).1 e.2 z := by
  intro G
  induction G with
  | nil => intro h _ _ _; exact ⟨rfl, CEq.refl h, fun _ _ F => F, fun _ _ F => F, by simp⟩
  | cons e G ih =>
    intro h S hG hnd
    have he := hG e (by simp)
    obtain ⟨hn1, hn2⟩ := List.nodup_cons.1 (by simpa using hnd : (e.1 :: G.map Prod.fst).Nodup)
    have hsub : ∀ z ∈ e.2, z ∈ h.kids p ∧ h.tag z = e.1 := by
      intro z hz; rw [he] at hz; have := List.mem_filter.1 hz; exact ⟨this.1, by simpa using this.2⟩
    obtain ⟨a, b, d, f⟩ := writePos_spec .fam e.2 e.2 h 0 (fun z hz => S z (hsub z hz).1) (by simp)
    generalize hw : writePos .fam h e.2 0 = w at a b d f
    obtain ⟨h1, r1⟩ := w
    simp only at a b d f
    subst a
    obtain ⟨a2, b2, c2, d2, e2⟩ := ih h1 (by rw [b.kids]; exact S.ceq b) (fun e' he' => by rw [b.famView]; exact hG e' (by simp [he'])) hn2
    simp only [writeFams, hw]
    refine ⟨a2, b.trans b2, fun ly z F => c2 ly z (d .abs ly z (by simp) F), ?_, ?_⟩
    · intro z hz F
      simp only [List.map_cons, List.mem_cons, not_or] at hz
      have := d2 z (by rw [b.tag]; exact hz.2)
      rw [b.famView, b.tag] at this
      exact this (d .fam _ z (fun hm => (hz.1 (hsub z hm).2).elim) F)
    · intro e' he' z hz
      rcases List.mem_cons.1 he' with rfl | he'
      · obtain ⟨z1, z2⟩ := hsub z hz
        have := d2 z (by rw [b.tag, z2]; exact hn1)
        rw [b.famView, b.tag, z2, ← he] at this
        exact this (f z hz)
      · exact e2 e' he' z hz

/-- C60. `x.force_cache_update()` on a child `x` of `p` changes nothing observable; afterwards `idx` and `tag_idx` of every child of `p` are read directly, without changing any object: the position in the
tree and the pair of the tag and the position in the family. -/
theorem C60_C18_force_update (H : Reach ms h) {p x : Id} (hx : x ∈ h.kids p) :
    ∃ h', forceCache h x true true true = (h', .ok ()) ∧ Unchanged h h' ∧ h'.next = h.next ∧
      ∀ c ∈ h.kids p, ∃ n m : Nat, h'.idx c = (h', .ok (some (n : Int))) ∧ (h.kids p)[n]? = some c ∧
        h'.tagIdx c = (h', .ok (.pair (h.tag c) m)) ∧ ((h.kids p).filter fun y => h.tag y = h.tag c)[m]? = some c := by
  have W := H.core.wf
  have hne : h.kids p ≠ [] := List.ne_nil_of_mem hx
  obtain ⟨r, h1, h2, h3, h4, h5⟩ := W.kid_parent p x hx
  obtain ⟨F, hF, O⟩ := W.fams_ok p hne
  obtain ⟨a, b, d, f⟩ := writePos_spec .abs (h.kids p) (h.kids p) h 0 (W.scannable p) (by simp)
  generalize hw : writePos .abs h (h.kids p) 0 = w at a b d f
  obtain ⟨g, r1⟩ := w
  simp only at a b d f
  subst a
  have hFg : (g.node p).fams = some F := by rw [b.node p]; exact hF
  have hmem : ∀ e ∈ F, e.2 = famView h p e.1 := by
    intro e he
    have : F.get? e.1 = some e.2 := by
      exact mem_lookup O.keys he
    rw [O.get] at this
    split at this
    · simp at this
    · simpa using this.symm
  obtain ⟨a2, b2, c2, d2, e2⟩ := writeFams_spec (p := p) F g (by rw [b.kids]; exact (W.scannable p).ceq b) (fun e he => by rw [b.famView]; exact hmem e he) O.keys
  refine ⟨(writeFams g F).1, ?_, (b.trans b2).unchanged, (b.trans b2).next, ?_⟩
  · simp only [forceCache, h1, h2, if_true, hw, hFg]
    simp only [Bool.not_true, Bool.and_false, Bool.false_eq_true, if_false]
    rw [← a2]
  · intro c hc
    have E := b.trans b2
    have W' := E.wf W
    have hc' : c ∈ (writeFams g F).1.kids p := by rw [E.kids]; exact hc
    have FA : Fresh .abs (writeFams g F).1 (h.kids p) c := c2 _ _ (f c hc)
    have hcv : c ∈ famView h p (h.tag c) := List.mem_filter.2 ⟨hc, by simp⟩
    have hget : F.get? (h.tag c) = some (famView h p (h.tag c)) := by rw [O.get, if_neg (List.ne_nil_of_mem hcv)]
    have FF : FreshFam (writeFams g F).1 c := by
      refine ⟨p, hc', ?_⟩
      rw [E.famView, E.tag]
      exact e2 (h.tag c, famView h p (h.tag c)) (lookup_mem hget) c hcv
    obtain ⟨q, m, hq, hm, he⟩ := tagIdx_of_fresh W' FF
    have hqp : q = p := by
      have e1 := par_child W' hq; rw [par_child W' hc'] at e1; simpa using e1.symm
    subst hqp
    obtain ⟨r', i1, i2, _⟩ := W'.kid_parent q c hc'
    have hcp := cachedPos_of_fresh i1 FA
    obtain ⟨r'', j1, j2, j3⟩ := FA
    rw [i1] at j1
    obtain rfl : r' = r'' := by simpa using j1
    refine ⟨(r'.getC .abs).toNat, m, ?_, j3, ?_, ?_⟩
    · simp only [Heap.idx, i1, i2, E.kids, hcp]
      rw [Int.toNat_of_nonneg j2]
    · rw [he, E.tag]
    · rw [E.famView, E.tag] at hm; exact hm

example : ∃ h', forceCache demo 3 true true true = (h', .ok ()) ∧ Unchanged demo h' := by
  obtain ⟨h', a, b, _⟩ := C60_C18_force_update demo_tidy.reach (p := 0) (x := 3) (by decide)
  exact ⟨h', a, b⟩

/-- C60, the code against the claim: `force_cache_update(all_keys=False)` looks the family up in the item itself: on an item without children it raises an exception. -/
theorem C60_own_family_wrong : (forceCache demo 3 true true false).2 = .error .attribute ∧ (forceCache demo 1 true true false).2 = .error .key := by decide +kernel

end ITree
