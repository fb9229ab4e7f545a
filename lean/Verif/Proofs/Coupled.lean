import Verif.Model.Coupled
import Verif.Proofs.LoadLinks5
/-
The table of coupled objects along `load_links`.
-/
namespace ITree
variable {α : Type}

/-- forget the table -/
def CRes.plain {β : Type} (r : CRes α β) : Res β := (r.1, r.2.2)

theorem linkedItemC_plain {loadC : Heap → Couples α → Id → CRes α Bool} {load : Heap → Id → Res Bool} (hl : ∀ h c x, (loadC h c x).plain = load h x) (h : Heap) (c : Couples α) (x : Id) :
    (linkedItemC loadC h c x).plain = linkedItem load h x := by
  unfold linkedItemC linkedItem
  split
  · rw [← hl h c x]
    simp only [CRes.plain]
    generalize (loadC h c x).2.2 = r
    cases r with
    | error e => cases e <;> rfl
    | ok b => rfl
  · split
    · rfl
    · generalize convert (convFuel (h.tree x)) (h.tree x) = r
      rcases r with _ | l
      · rfl
      · rcases l with _ | ⟨U, _ | ⟨V, l⟩⟩ <;> rfl

theorem loadLoopC_plain {loadC : Heap → Couples α → Id → CRes α Bool} {load : Heap → Id → Res Bool} (hl : ∀ h c x, (loadC h c x).plain = load h x) (d : List (LKey × α)) (p s : Id) :
    ∀ (ys : List Id) (h : Heap) (c : Couples α) (E : List (LEntry Id)) (ks : List LKey), (loadLoopC loadC d p s h c ys E ks).plain = loadLoop load p s h ys E ks
  | [], _, _, _, _ => rfl
  | y :: ys, h, c, E, ks => by
    rw [loadLoopC, loadLoop, ← linkedItemC_plain hl h c y]
    simp only [CRes.plain]
    generalize linkedItemC loadC h c y = n
    obtain ⟨n1, n2, n3⟩ := n
    cases n3 with
    | error e => rfl
    | ok x =>
      simp only
      generalize n1.tagIdx y = g
      obtain ⟨g1, g2⟩ := g
      rcases g2 with e | ⟨_ | ⟨t, m⟩ | m⟩
      · rfl
      · rfl
      · simp only
        split
        · exact loadLoopC_plain hl d p s ys _ _ _ _
        · exact loadLoopC_plain hl d p s ys _ _ _ _
      · rfl

theorem takeOverC_plain {loadC : Heap → Couples α → Id → CRes α Bool} {load : Heap → Id → Res Bool} (hl : ∀ h c x, (loadC h c x).plain = load h x) (truthy : α → Bool) (h : Heap) (c : Couples α) (p s : Id) :
    (takeOverC truthy loadC h c p s).plain = takeOver load h p s := by
  rw [takeOverC, takeOver]
  generalize numberKids h p = r
  obtain ⟨r1, r2⟩ := r
  cases r2 with
  | error e => rfl
  | ok l =>
    simp only
    rw [← loadLoopC_plain hl (oldCouples truthy r1 c l) p s ((dropKids r1 p).kids s) (dropKids r1 p) c (localItems r1 l) []]
    simp only [CRes.plain]
    generalize loadLoopC loadC (oldCouples truthy r1 c l) p s (dropKids r1 p) c ((dropKids r1 p).kids s) (localItems r1 l) [] = q
    obtain ⟨q1, q2, q3⟩ := q
    cases q3 <;> rfl

theorem loadLinksC_plain (env : LinkEnv) (truthy : α → Bool) (force : Bool) : ∀ (n : Nat) (h : Heap) (c : Couples α) (p : Id), (loadLinksC env truthy force n h c p).plain = loadLinks env force n h p
  | 0, _, _, _ => rfl
  | n + 1, h, c, p => by
    rw [loadLinksC, loadLinks]
    cases (h.node p).link with
    | none => rfl
    | some lk =>
      simp only
      generalize loadActive env h p lk force = a
      obtain ⟨a1, a2⟩ := a
      rcases a2 with e | _ | _
      · rfl
      · rfl
      · simp only
        generalize env.find a1 p = f
        obtain ⟨f1, f2⟩ := f
        cases f2 with
        | error e => rfl
        | ok s => exact takeOverC_plain (loadLinksC_plain env truthy force n) truthy f1 c p s

theorem itemsLoop_pos : ∀ (l : List Id) (h : Heap) (cs : List (Tag × Nat)) (h' : Heap) (L : List ((Tag × Nat) × Id)), l.Nodup → itemsLoop (fun _ => true) h l cs = (h', .ok L) →
    ∀ e ∈ L, e.2 ∈ l ∧ ∃ r, (h'.node e.2).parent = some r ∧ r.famC = e.1.2
  | [], h, cs, h', L, _, hh, e, he => by
    simp only [itemsLoop, Prod.mk.injEq, Except.ok.injEq] at hh
    rw [← hh.2] at he; simp at he
  | x :: xs, h, cs, h', L, nd, hh, e, he => by
    rw [itemsLoop] at hh
    cases hb : bump cs (h.tag x) with
    | none => rw [hb] at hh; simp at hh
    | some nc =>
      obtain ⟨n, cs'⟩ := nc
      cases hp : (h.node x).parent with
      | none => rw [hb, hp] at hh; simp at hh
      | some r =>
        rw [hb, hp] at hh
        simp only at hh
        split at hh
        · simp at hh
        · generalize hq : itemsLoop (fun _ => true) (h.setParent x (some { r with famC := n })) xs cs' = q at hh
          obtain ⟨q1, q2⟩ := q
          cases q2 with
          | error e => simp at hh
          | ok L' =>
            simp only [Prod.mk.injEq, Except.ok.injEq, if_true] at hh
            obtain ⟨rfl, rfl⟩ := hh
            obtain ⟨nx, nd'⟩ := List.nodup_cons.1 nd
            rcases List.mem_cons.1 he with rfl | he'
            · have := itemsLoop_node (fun _ => true) xs (h.setParent x (some { r with famC := n })) cs' x nx
              rw [hq] at this
              simp only at this
              refine ⟨by simp, { r with famC := n }, ?_, rfl⟩
              rw [this]; simp [Heap.setParent, Heap.modify]
            · obtain ⟨a, b⟩ := itemsLoop_pos xs _ cs' q1 L' nd' hq e he'
              exact ⟨List.mem_cons_of_mem _ a, b⟩

/-- The numbering of the children makes `tag_idx` of every child its key, read without any further change: the simplification in `oldCouples` changes nothing. -/
theorem numberKids_reads {h g1 : Heap} (W : WF h) {p : Id} (e1 : numberKids h p = (g1, .ok (numbered h p))) (C : CEq h g1) : ∀ e ∈ numbered h p, g1.tagIdx e.2 = (g1, .ok (.pair e.1.1 e.1.2)) := by
  intro e he
  obtain ⟨hk, ht, hf⟩ := (mem_numbered_iff W (t := e.1.1) (n := e.1.2)).1 he
  obtain ⟨-, r, r1, r2⟩ := itemsLoop_pos _ _ _ _ _ (W.kids_nodup p) e1 e he
  have hv : famView g1 p (g1.tag e.2) = famView h p e.1.1 := by
    rw [C.tag, ht]
    unfold famView
    rw [C.kids]
    exact List.filter_congr fun y _ => by rw [C.tag]
  have F : FreshFam g1 e.2 := ⟨p, by rw [C.kids]; exact hk, r, r1, by simp [PRef.getC, r2], by rw [hv]; simpa [PRef.getC, r2] using hf⟩
  obtain ⟨q, m, hq, hm, ee⟩ := tagIdx_of_fresh (C.wf W) F
  have hqp : q = p := (C.wf W).parent_unique hq (by rw [C.kids]; exact hk)
  subst hqp
  rw [hv] at hm
  have nd : (famView h q e.1.1).Nodup := (W.kids_nodup q).filter _
  have : m = e.1.2 := by
    obtain ⟨a1, a2⟩ := List.getElem?_eq_some_iff.1 hm
    obtain ⟨b1, b2⟩ := List.getElem?_eq_some_iff.1 hf
    exact (List.Nodup.getElem_inj_iff nd).1 (a2.trans b2.symm)
  rw [ee, this, C.tag, ht]

/-- one round of the loop for a plain child of the source -/
theorem loadLoopC_step {loadC : Heap → Couples α → Id → CRes α Bool} {load : Heap → Id → Res Bool} {d : List (LKey × α)} {p s : Id} {h h3 : Heap} {c : Couples α} {y : Id} {E E3 : List (LEntry Id)} {key : LKey}
    (pl1 : (h.flags y).has Flags.linkRoot = false) (pl2 : (h.flags y).has Flags.linked = false) (e : loadLoop load p s h [y] E [] = (h3, .ok (E3, [key]))) (ys : List Id) (ks : List LKey) :
    ∃ x, (∃ U, x = (build h U).2) ∧ loadLoopC loadC d p s h c (y :: ys) E ks = loadLoopC loadC d p s h3 (handOver d c key x) ys E3 (ks ++ [key]) := by
  have pl1' : h.isLinkRoot y = false := pl1
  rw [loadLoopC]
  rw [loadLoop] at e
  simp only [linkedItemC, pl1', Bool.false_eq_true, if_false, pl2]
  simp only [linkedItem, pl1', Bool.false_eq_true, if_false, pl2] at e
  generalize convert (convFuel (h.tree y)) (h.tree y) = r at e ⊢
  rcases r with _ | l
  · simp at e
  · rcases l with _ | ⟨U, _ | ⟨V, l⟩⟩
    · simp at e
    · simp only at e ⊢
      generalize hg : (build h U).1.tagIdx y = g at e ⊢
      obtain ⟨g1, g2⟩ := g
      rcases g2 with e' | ⟨_ | ⟨t, m⟩ | m⟩
      · simp at e
      · simp at e
      · simp only at e ⊢
        by_cases hk : ((t, m.toNat) : LKey) ∈ E.map (·.1)
        · rw [if_pos hk] at e ⊢
          simp only [loadLoop, List.nil_append, Prod.mk.injEq, Except.ok.injEq, List.cons.injEq, and_true] at e
          obtain ⟨a, b, c⟩ := e
          rw [← a, ← b]
          have c' : key = (t, m.toNat) := by rw [← c]
          rw [c']
          exact ⟨_, ⟨U, rfl⟩, rfl⟩
        · rw [if_neg hk] at e ⊢
          simp only [loadLoop, List.nil_append, Prod.mk.injEq, Except.ok.injEq, List.cons.injEq, and_true] at e
          obtain ⟨a, b, c⟩ := e
          rw [← a, ← b]
          have c' : key = (t, m.toNat) := by rw [← c]
          rw [c']
          exact ⟨_, ⟨U, rfl⟩, rfl⟩
      · simp at e
    · simp at e

/-- what the old dictionary has for a key -/
def given (d : List (LKey × α)) (k : LKey) : Option (Option α) := (d.find? fun e => e.1 = k).map fun e => some e.2

theorem handOver_eq (d : List (LKey × α)) (c : Couples α) (k : LKey) (x i : Id) : handOver d c k x i = if i = x then (given d k).or (c x) else c i := by
  unfold handOver given
  cases d.find? fun e => e.1 = k with
  | none => simp only [Option.map_none, Option.none_or]; split <;> simp_all
  | some e => simp [setCoupled]

/-- the loop only adds objects -/
theorem loop_next {load : Heap → Id → Res Bool} {p s : Id} : ∀ (pre post : List (LKey × Id)) {cs : List (LKey × Id)} {h : Heap} {E : List (LEntry Id)} {ks : List LKey}, cs = pre ++ post → LoopPre h p s cs E →
    h.next ≤ (loadLoop load p s h (pre.map (·.2)) E ks).1.next
  | [], _, _, _, _, _, _, _ => by simp [loadLoop]
  | (key, y) :: pre, post, _, h, E, ks, hh, P => by
    subst hh
    obtain ⟨h3, e3, P3, -, -, A⟩ := loadStep (load := load) (cs := pre ++ post) (key := key) (c := y) P
    have := loop_next (load := load) (ks := ks ++ [key]) pre post rfl P3
    rw [List.map_cons, e3]
    exact Nat.le_trans A.next this

/-- the loop: exactly the new items get what the dictionary has for their key -/
theorem loadLoopC_table {loadC : Heap → Couples α → Id → CRes α Bool} {load : Heap → Id → Res Bool} {d : List (LKey × α)} {p s : Id} : ∀ (cs : List (LKey × Id)) {h : Heap} (c : Couples α) (E : List (LEntry Id))
    (ks : List LKey), LoopPre h p s cs E → (∀ i, i < h.next → (loadLoopC loadC d p s h c (cs.map (·.2)) E ks).2.1 i = c i) ∧
      (∀ pre e post, cs = pre ++ e :: post → (loadLoopC loadC d p s h c (cs.map (·.2)) E ks).2.1 (loadLoop load p s h (pre.map (·.2)) E ks).1.next =
        (given d e.1).or (c (loadLoop load p s h (pre.map (·.2)) E ks).1.next)) ∧
      (∀ i, (∀ pre e post, cs = pre ++ e :: post → i ≠ (loadLoop load p s h (pre.map (·.2)) E ks).1.next) → (loadLoopC loadC d p s h c (cs.map (·.2)) E ks).2.1 i = c i) := by
  intro cs
  induction cs with
  | nil => intro h c E ks P; exact ⟨fun _ _ => rfl, fun pre e post hh => by simp at hh, fun _ _ => rfl⟩
  | cons e cs ih =>
    obtain ⟨key, y⟩ := e
    intro h c E ks P
    obtain ⟨h3, e3, P3, num, tr, A⟩ := loadStep (load := load) P
    obtain ⟨pl1, pl2⟩ := P.plain (key, y) (by simp)
    have e1 := e3 [] []
    rw [List.nil_append] at e1
    simp only [loadLoop.eq_1] at e1
    obtain ⟨x, ⟨U, hx⟩, st⟩ := loadLoopC_step (loadC := loadC) (d := d) (c := c) pl1 pl2 e1 (cs.map (·.2)) ks
    have hxn : x = h.next := hx.trans (build_spec P.wf U).root
    obtain ⟨T, t1, -, -, t4⟩ := A.new (key, y) (by simp)
    have hlt : h.next < h3.next := by
      have := (t4 T.id (by cases T; simp [Tree.id, Tree.ids_node])).2
      rw [t1] at this; exact this
    rw [hxn] at st
    obtain ⟨i1, i2, i3⟩ := ih (h := h3) (handOver d c key h.next) (stepRest (fun k => decide (k ∈ (numbered h s).map Prod.fst)) key E) (ks ++ [key]) P3
    have hmono : ∀ pre e post, cs = pre ++ e :: post → h3.next ≤ (loadLoop load p s h3 (pre.map (·.2)) (stepRest (fun k => decide (k ∈ (numbered h s).map Prod.fst)) key E) (ks ++ [key])).1.next := by
      intro pre e post hh
      exact loop_next pre (e :: post) hh P3
    simp only [List.map_cons, st]
    refine ⟨fun i hi => ?_, fun pre e post hh => ?_, fun i hi => ?_⟩
    · rw [i1 i (by omega), handOver_eq, if_neg (by omega)]
    · cases pre with
      | nil =>
        simp only [List.nil_append, List.cons.injEq] at hh
        simp only [List.map_nil, loadLoop.eq_1, ← hh.1]
        rw [i1 _ hlt, handOver_eq, if_pos rfl]
      | cons a pre =>
        simp only [List.cons_append, List.cons.injEq] at hh
        rw [← hh.1]
        simp only [List.map_cons, e3]
        rw [i2 pre e post hh.2, handOver_eq, if_neg]
        have := hmono pre e post hh.2
        omega
    · rw [i3 i fun pre e post hh => by
        have := hi ((key, y) :: pre) e post (by rw [hh]; rfl)
        simpa only [List.map_cons, e3] using this, handOver_eq, if_neg]
      have := hi [] (key, y) cs rfl
      simpa [loadLoop] using this

end ITree
