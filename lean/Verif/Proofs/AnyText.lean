import Verif.Proofs.Separate4
import Verif.Proofs.Reach
import Verif.Props.Arith
/-
Loading any text: what the loader does is a sequence of constructor calls on items it made itself (helper lemmas for Props/AnyText).
-/
namespace ITree

open Json (Env J SErr)

/-- all constructor calls the loader can make for a row have flags and link of kind `P` -/
structure RowOK (N : Names) (E : Env) (P : Flags → Option LinkSt → Prop) (row : List J) : Prop where
  leaf : ∀ t v f lk, leafArgs N E row = .ok (t, v, f, lk) → P f lk
  main : ∀ t v f lk, mainArgs N E row = .ok (t, v, f, lk) → P f lk

/-- an invariant `I` of the heap and a property `K` of items that survive constructor calls -/
structure Makes (P : Flags → Option LinkSt → Prop) (I : Heap → Prop) (K : Heap → Id → Prop) : Prop where
  new : ∀ {h : Heap} (t v sub f lk), I h → (∀ i ∈ sub, K h i) → P f lk →
    I (heapBuilder.new h t v sub f lk).1 ∧ K (heapBuilder.new h t v sub f lk).1 (heapBuilder.new h t v sub f lk).2 ∧ ∀ i, K h i → K (heapBuilder.new h t v sub f lk).1 i

section
variable {N : Names} {E : Env} {P : Flags → Option LinkSt → Prop} {I : Heap → Prop} {K : Heap → Id → Prop}

def EntryOK (N : Names) (E : Env) (P : Flags → Option LinkSt → Prop) (K : Heap → Id → Prop) (h : Heap) : Entry Id → Prop
  | .item i => K h i
  | .raw row => RowOK N E P row

theorem EntryOK.mono {h h' : Heap} (M : ∀ i, K h i → K h' i) {e : Entry Id} (H : EntryOK N E P K h e) : EntryOK N E P K h' e := by
  cases e with
  | item i => exact M i H
  | raw row => exact H

theorem Makes.kids (V : Makes P I K) : ∀ (es : List (Entry Id)) {h : Heap}, I h → (∀ e ∈ es, EntryOK N E P K h e) →
    I (makeKids heapBuilder N E h es).1 ∧ (∀ l, (makeKids heapBuilder N E h es).2 = .ok l → ∀ i ∈ l, K (makeKids heapBuilder N E h es).1 i) ∧ ∀ i, K h i → K (makeKids heapBuilder N E h es).1 i
  | [], h, S, _ => ⟨S, (fun l e i hi => by cases e; cases hi), fun _ k => k⟩
  | .item j :: es, h, S, H => by
    have A := V.kids es S fun e he => H e (List.mem_cons_of_mem _ he)
    unfold makeKids
    generalize makeKids heapBuilder N E h es = r at A ⊢
    obtain ⟨h', o⟩ := r
    cases o with
    | error e => exact ⟨A.1, (fun l e => by cases e), A.2.2⟩
    | ok l =>
      refine ⟨A.1, fun l' e i hi => ?_, A.2.2⟩
      cases e
      rcases List.mem_cons.1 hi with rfl | hi
      · exact A.2.2 _ (H _ (List.mem_cons_self ..))
      · exact A.2.1 l rfl i hi
  | .raw row :: es, h, S, H => by
    unfold makeKids
    split
    · exact ⟨S, (fun l e => by cases e), fun _ k => k⟩
    · next t v f lk hr =>
      have B := V.new t v [] f lk S (by simp) ((H (.raw row) (List.mem_cons_self ..)).leaf t v f lk hr)
      have A := V.kids es B.1 fun e he => (H e (List.mem_cons_of_mem _ he)).mono B.2.2
      dsimp only
      generalize heapBuilder.new h t v [] f lk = n at A B ⊢
      generalize makeKids heapBuilder N E n.1 es = r at A ⊢
      obtain ⟨h', o⟩ := r
      have mo : ∀ i, K h i → K h' i := fun i k => A.2.2 i (B.2.2 i k)
      cases o with
      | error e => exact ⟨A.1, (fun l e => by cases e), mo⟩
      | ok l =>
        refine ⟨A.1, fun l' e i hi => ?_, mo⟩
        cases e
        rcases List.mem_cons.1 hi with rfl | hi
        · exact A.2.2 _ B.2.1
        · exact A.2.1 l rfl i hi

/-- a state of the loader -/
structure LoadOK (N : Names) (E : Env) (P : Flags → Option LinkSt → Prop) (I : Heap → Prop) (K : Heap → Id → Prop) (x : LoadSt Heap Id) : Prop where
  inv : I x.s
  entries : ∀ l ∈ x.levels, ∀ e ∈ l, EntryOK N E P K x.s e
  last : ∀ i, x.it = some i → K x.s i

/-- a result of the loader -/
def ResOK (N : Names) (E : Env) (P : Flags → Option LinkSt → Prop) (I : Heap → Prop) (K : Heap → Id → Prop) (r : Heap × Except SErr (LoadSt Heap Id)) : Prop :=
  I r.1 ∧ ∀ x, r.2 = .ok x → LoadOK N E P I K x

theorem ResOK.err {h : Heap} {e : SErr} (S : I h) : ResOK N E P I K (h, .error e) := ⟨S, fun x e => by cases e⟩
theorem ResOK.ok {h : Heap} {x : LoadSt Heap Id} (S : I h) (X : LoadOK N E P I K x) : ResOK N E P I K (h, .ok x) := ⟨S, fun y e => by cases e; exact X⟩

theorem Makes.popLevel (V : Makes P I K) (x : LoadSt Heap Id) (S : LoadOK N E P I K x) : ResOK N E P I K (ITree.popLevel heapBuilder N E x) := by
  unfold ITree.popLevel
  split
  · next top row more rest hx =>
    split
    · exact .err S.inv
    · next t v f lk hr =>
      have et : ∀ e ∈ top, EntryOK N E P K x.s e := S.entries top (by rw [hx]; simp)
      have er : ∀ e ∈ Entry.raw row :: more, EntryOK N E P K x.s e := S.entries _ (by rw [hx]; simp)
      have A := V.kids (N := N) (E := E) top.reverse S.inv fun e he => et e (List.mem_reverse.1 he)
      generalize makeKids heapBuilder N E x.s top.reverse = r at A ⊢
      obtain ⟨h', o⟩ := r
      cases o with
      | error e => exact .err A.1
      | ok l =>
        have B := V.new t v l f lk A.1 (A.2.1 l rfl) ((er _ (List.mem_cons_self ..)).main t v f lk hr)
        have mo : ∀ i, K x.s i → K (heapBuilder.new h' t v l f lk).1 i := fun i k => B.2.2 i (A.2.2 i k)
        dsimp only
        refine .ok B.1 ⟨B.1, fun l' hl' e he => ?_, fun i hi => by cases hi; exact B.2.1⟩
        rcases List.mem_cons.1 hl' with rfl | hl'
        · rcases List.mem_cons.1 he with rfl | he
          · exact B.2.1
          · exact (er e (List.mem_cons_of_mem _ he)).mono mo
        · exact (S.entries l' (by rw [hx]; simp [hl']) e he).mono mo
  · exact .err S.inv
  · exact .err S.inv

theorem Makes.popN (V : Makes P I K) : ∀ (n : Nat) (x : LoadSt Heap Id), LoadOK N E P I K x → ResOK N E P I K (ITree.popN heapBuilder N E n x)
  | 0, x, S => .ok S.inv S
  | n + 1, x, S => by
    have A := V.popLevel (N := N) (E := E) x S
    unfold ITree.popN
    generalize ITree.popLevel heapBuilder N E x = r at A ⊢
    obtain ⟨h', o⟩ := r
    cases o with
    | error e => exact .err A.1
    | ok y => exact V.popN n y (A.2 y rfl)

theorem Makes.loadRow (V : Makes P I K) (x : LoadSt Heap Id) (S : LoadOK N E P I K x) (row : J) (hr : ∀ r, row = .arr r → RowOK N E P r) : ResOK N E P I K (ITree.loadRow heapBuilder N E x row) := by
  unfold ITree.loadRow
  split
  · next d r =>
    have hr := hr _ rfl
    split
    · exact .err S.inv
    · next top rest hx =>
      have et : ∀ e ∈ top, EntryOK N E P K x.s e := S.entries top (by rw [hx]; simp)
      split
      · refine .ok S.inv ⟨S.inv, fun l hl e he => ?_, S.last⟩
        rcases List.mem_cons.1 hl with rfl | hl
        · rcases List.mem_cons.1 he with rfl | he
          · exact hr
          · exact et e he
        · exact S.entries l (by rw [hx]; simp [hl]) e he
      · split
        · refine .ok S.inv ⟨S.inv, fun l hl e he => ?_, S.last⟩
          rcases List.mem_cons.1 hl with rfl | hl
          · rcases List.mem_cons.1 he with rfl | he
            · exact hr
            · cases he
          · exact S.entries l (by rw [hx]; exact hl) e he
        · split
          · have A := V.popN (N := N) (E := E) ((rest.length : Int) - d).toNat x S
            generalize ITree.popN heapBuilder N E ((rest.length : Int) - d).toNat x = u at A ⊢
            obtain ⟨h', o⟩ := u
            cases o with
            | error e => exact .err A.1
            | ok y =>
              have B := A.2 y rfl
              dsimp only
              split
              · next top' rest' hy =>
                refine .ok B.inv ⟨B.inv, fun l hl e he => ?_, B.last⟩
                rcases List.mem_cons.1 hl with rfl | hl
                · rcases List.mem_cons.1 he with rfl | he
                  · exact hr
                  · exact B.entries top' (by rw [hy]; simp) e he
                · exact B.entries l (by rw [hy]; simp [hl]) e he
              · exact .err B.inv
          · exact .err S.inv
  · exact .err S.inv

theorem Makes.loadRows (V : Makes P I K) : ∀ (rows : List J) (x : LoadSt Heap Id), LoadOK N E P I K x → (∀ r, J.arr r ∈ rows → RowOK N E P r) → ResOK N E P I K (ITree.loadRows heapBuilder N E x rows)
  | [], x, S, _ => .ok S.inv S
  | r :: rs, x, S, H => by
    have A := V.loadRow (N := N) (E := E) x S r fun l e => H l (by rw [e]; exact List.mem_cons_self ..)
    unfold ITree.loadRows
    generalize ITree.loadRow heapBuilder N E x r = u at A ⊢
    obtain ⟨h', o⟩ := u
    cases o with
    | error e => exact .err A.1
    | ok y => exact V.loadRows rs y (A.2 y rfl) fun l hl => H l (List.mem_cons_of_mem _ hl)

/-- the invariant holds after loading rows, and for the item delivered -/
theorem Makes.fromRaw (V : Makes P I K) {h : Heap} (S : I h) (rows : List J) (H : ∀ r, J.arr r ∈ rows → RowOK N E P r) :
    I (ITree.fromRaw heapBuilder N E h rows).1 ∧ ∀ i, (ITree.fromRaw heapBuilder N E h rows).2 = .ok i → K (ITree.fromRaw heapBuilder N E h rows).1 i := by
  have A := V.loadRows (N := N) (E := E) rows { s := h, levels := [[]], it := none } ⟨S, (fun l hl e he => by simp at hl; subst hl; cases he), fun i e => by cases e⟩ H
  unfold ITree.fromRaw
  generalize ITree.loadRows heapBuilder N E { s := h, levels := [[]], it := none } rows = u at A ⊢
  obtain ⟨h', o⟩ := u
  cases o with
  | error e => exact ⟨A.1, fun i e => by cases e⟩
  | ok x =>
    have B := V.popN (N := N) (E := E) (x.levels.length - 1) x (A.2 x rfl)
    dsimp only
    generalize ITree.popN heapBuilder N E (x.levels.length - 1) x = u at B ⊢
    obtain ⟨h'', o⟩ := u
    cases o with
    | error e => exact ⟨B.1, fun i e => by cases e⟩
    | ok y =>
      have C := B.2 y rfl
      dsimp only
      split
      · next j hj => exact ⟨C.inv, fun i e => by cases e; exact C.last _ hj⟩
      · exact ⟨C.inv, fun i e => by cases e⟩

theorem Makes.text (V : Makes P I K) {h : Heap} (S : I h) {sha : List Char → List Char} {c : Bool} {text : List Char} (H : ∀ rows r, loadCheck sha c text = .ok rows → J.arr r ∈ rows → RowOK N E P r) :
    I (loadsText heapBuilder sha N E c h text).1 ∧ ∀ i, (loadsText heapBuilder sha N E c h text).2 = .ok i → K (loadsText heapBuilder sha N E c h text).1 i := by
  unfold loadsText
  split
  · exact ⟨S, fun i e => by cases e⟩
  · next rows hr => exact V.fromRaw S rows fun r => H rows r hr
end

/-- making items changes no object of `N` -/
theorem NI.makes {N : Id → Prop} {Q : Prop} (h0 : Heap) : Makes (fun _ _ => True) (fun h => NI N Q h0 h) (fun _ i => ¬ N i) where
  new {h} t v sub f lk S H _ := by
    simp only [heapBuilder]
    cases lk with
    | none =>
      have B := NI.newItem (t := t) (v := v) (f := f) S.sep (out_args H)
      have e := newItem_fst h t v (sub.map Arg.item) f
      dsimp only
      generalize ITree.newItem h t v (sub.map Arg.item) f = r at B e ⊢
      obtain ⟨h', o⟩ := r
      simp only at e; subst e
      exact ⟨S.trans B, S.sep.next, fun _ k => k⟩
    | some l =>
      have B := NI.newLink (t := t) (v := v) (f := f) (file := l.file) (path := l.path) S.sep (out_args H)
      have e : (ITree.newLink h t v (sub.map Arg.item) f l.file l.path).2 = .ok h.next := newItem_fst h t v (sub.map Arg.item) f
      dsimp only
      generalize ITree.newLink h t v (sub.map Arg.item) f l.file l.path = r at B e ⊢
      obtain ⟨h', o⟩ := r
      simp only at e; subst e
      exact ⟨S.trans B, S.sep.next, fun _ k => k⟩

/-- links are not loaded while the item is made -/
def QuietArgs (f : Flags) (lk : Option LinkSt) : Prop := lk.isSome = true → f.has Flags.loadLinks = false

/-- what the loader keeps: a reachable state in which the items of `h0` are as before -/
structure Kept0 (ms : ModelSet) (h0 h : Heap) : Prop where
  reach : Reach ms h
  same : Unchanged h0 h

/-- an item made since `h0`, with nothing older below it -/
structure Newly (h0 h : Heap) (i : Id) : Prop where
  lt : i < h.next
  below : ∀ y, Below h i y → h0.next ≤ y

theorem Newly.of_new {ms : ModelSet} {h0 h h' : Heap} (S : Kept0 ms h0 h) {sub : List Id} (H : ∀ i ∈ sub, Newly h0 h i) {t : Tag} {v : Val} {f f' : Flags} {lk : Option LinkSt} {Ts : List Tree} (RC : Reach ms h')
    (R : Rep h' (.node h.next t v f' lk Ts)) (hx : h.next < h'.next) (len : Ts.length = (sub.map Arg.item).length)
    (made : ∀ (k : Nat) a T, (sub.map Arg.item)[k]? = some a → Ts[k]? = some T → MadeAt h (f &&& Flags.deepMask) ((sub.map Arg.item).take k) a T)
    (data : ∀ i, i < h.next → h'.tag i = h.tag i ∧ (h'.node i).value = (h.node i).value ∧ (h'.node i).link = (h.node i).link ∧ h'.kids i = h.kids i)
    (flags : ∀ i, i < h.next → h'.flags i = h.flags i ∨ (h'.flags i = h.flags i ||| (f &&& Flags.deepMask) ∧ ∃ j, Arg.item j ∈ sub.map Arg.item ∧ h.par j = none ∧ Below h j i))
    (par : ∀ i, i < h.next → Arg.item i ∉ sub.map Arg.item → h'.par i = h.par i) : Kept0 ms h0 h' ∧ Newly h0 h' h.next ∧ ∀ i, Newly h0 h i → Newly h0 h' i := by
  have W := S.reach.core.wf
  have F := S.reach.core.forest
  have n0 := S.same.next
  refine ⟨⟨RC, ?_⟩, ⟨hx, fun y b => ?_⟩, fun i N => ⟨Nat.lt_trans N.lt hx, fun y b => ?_⟩⟩
  · have lt : ∀ i, i < h0.next → i < h.next := fun i hi => Nat.lt_of_lt_of_le hi n0
    refine ⟨Nat.le_trans n0 (Nat.le_of_lt hx), fun i hi => ((data i (lt i hi)).1).trans (S.same.tag i hi), fun i hi => ((data i (lt i hi)).2.1).trans (S.same.value i hi), fun i hi => ?_,
      fun i hi => ((data i (lt i hi)).2.2.1).trans (S.same.link i hi), fun i hi _ => ((data i (lt i hi)).2.2.2).trans (S.same.kids i hi id), fun i hi _ => ?_⟩
    · rcases flags i (lt i hi) with e | ⟨_, j, hj, _, b⟩
      · exact e.trans (S.same.flags i hi)
      · obtain ⟨k, hk, e⟩ := List.mem_map.1 hj
        cases e
        exact absurd hi (Nat.not_lt.2 ((H _ hk).below i b))
    · refine (par i (lt i hi) fun hm => ?_).trans (S.same.par i hi id)
      obtain ⟨k, hk, e⟩ := List.mem_map.1 hm
      cases e
      exact absurd hi (Nat.not_lt.2 ((H _ hk).below i .refl))
  · have hy := (below_iff_ids R y).1 b
    rw [Tree.ids_node, List.mem_cons] at hy
    rcases hy with rfl | hy
    · exact n0
    · obtain ⟨T, hT, hy⟩ := Tree.mem_idsL.1 hy
      obtain ⟨k, hk⟩ := List.getElem?_of_mem hT
      have hlt : k < sub.length := by
        have := (List.getElem?_eq_some_iff.1 hk).1
        simpa [len] using this
      have ha : (sub.map Arg.item)[k]? = some (.item sub[k]) := by simp [hlt]
      have M := made k _ T ha hk
      simp only [MadeAt] at M
      split at M
      · rw [M.1] at hy
        have K := H sub[k] (List.getElem_mem hlt)
        exact K.below y (by have := (below_iff_ids (tree_rep W F sub[k]) y).2 hy; rwa [tree_id] at this)
      · exact Nat.le_trans n0 (M.1 y hy)
  · suffices Below h i y ∧ y < h.next from N.below y this.1
    induction b with
    | refl => exact ⟨.refl, N.lt⟩
    | step _ hc ih =>
      rw [(data _ ih.2).2.2.2] at hc
      exact ⟨ih.1.step hc, W.kids_lt _ _ hc⟩

/-- making items from new ones keeps the trees consistent and the old items as they are -/
theorem Kept0.makes (ms : ModelSet) (h0 : Heap) : Makes QuietArgs (Kept0 ms h0) (Newly h0) where
  new {h} t v sub f lk S H q := by
    have ha : ∀ i, Arg.item i ∈ sub.map Arg.item → i < h.next := by
      intro i hi
      obtain ⟨j, hj, e⟩ := List.mem_map.1 hi
      cases e; exact (H _ hj).lt
    have hp : ∀ a ∈ sub.map Arg.item, a.isPlain = true := by
      intro a ha
      obtain ⟨j, _, rfl⟩ := List.mem_map.1 ha
      rfl
    cases lk with
    | none =>
      obtain ⟨h', Ts, e, es, R, pr, hx, len, made, data, flags, par, -⟩ := C50_constructor S.reach t v (sub.map Arg.item) f ha hp
      have en : heapBuilder.new h t v sub f none = (h', h.next) := by simp only [heapBuilder, e]
      rw [en]
      exact Newly.of_new S H (es ▸ S.reach.step (.new t v (sub.map Arg.item) f) ⟨ha, hp⟩) R hx len made data flags par
    | some l =>
      obtain ⟨h', Ts, e, es, R, pr, hx, len, made, data, flags, par, -⟩ := C50_link S.reach t v (sub.map Arg.item) f l.file l.path ha hp (q rfl)
      have en : heapBuilder.new h t v sub f (some l) = (h', h.next) := by simp only [heapBuilder, e]
      rw [en]
      exact Newly.of_new S H (es ▸ S.reach.step (.newLink t v (sub.map Arg.item) f l.file l.path) ⟨ha, hp, q rfl⟩) R hx len made data flags par

end ITree
