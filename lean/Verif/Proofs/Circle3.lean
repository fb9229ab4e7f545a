import Verif.Proofs.Circle2
import Verif.Proofs.AnyText
import Verif.Model.FileLinks
/-
Circular links: loading files makes new objects only.
-/
namespace ITree

open Json (Env J SErr)

/-- a new item with new items below it only -/
def AllNew (h g : Heap) (i : Id) : Prop := h.next ≤ i ∧ ∀ y, Below g i y → h.next ≤ y

theorem AllNew.kid {h g : Heap} {i x : Id} (A : AllNew h g i) (hx : x ∈ g.kids i) : AllNew h g x :=
  ⟨A.2 x (.step .refl hx), fun y b => A.2 y (Below.head hx b)⟩

theorem AllNew.next {h g g' : Heap} (H : ∀ q, h.next ≤ q → ∀ x ∈ g'.kids q, x ∈ g.kids q ∨ AllNew h g x) {i : Id} (A : AllNew h g i) : AllNew h g' i := by
  refine ⟨A.1, fun y b => ?_⟩
  have : AllNew h g y := by
    induction b with
    | refl => exact A
    | step _ hc ih =>
      rcases H _ ih.1 _ hc with h1 | h1
      · exact ih.kid h1
      · exact h1
  exact this.1

/-- one step of the loader: everything outside is kept, new items stay new -/
structure Grows (fo : Bool) (h : Heap) (S : Id → Prop) (g g' : Heap) : Prop where
  keeps : LoadKeeps fo h S g'
  mono : ∀ i, AllNew h g i → AllNew h g' i

section
variable {fo : Bool} {h : Heap} {S : Id → Prop} {g g' g1 : Heap}

theorem Grows.refl (K : LoadKeeps fo h S g) : Grows fo h S g g := ⟨K, fun _ a => a⟩
theorem Grows.trans (A : Grows fo h S g g1) (B : Grows fo h S g1 g') : Grows fo h S g g' := ⟨B.keeps, fun i a => B.mono i (A.mono i a)⟩

/-- changing a new object: its children stay, or new ones are added -/
theorem Grows.modify (K : LoadKeeps fo h S g) (hS : ∀ i, S i → i < h.next) {q : Id} (hq : h.next ≤ q) {f : Node → Node} (hk : ∀ x ∈ (f (g.node q)).items, x ∈ g.kids q ∨ AllNew h g x) : Grows fo h S g (g.modify q f) where
  keeps := K.modify (fun a => absurd a (by omega)) (fun a => absurd a (by omega)) (fun o => absurd o.1 (by omega)) (fun si => absurd (hS q si) (by omega)) fun ho x hx => by
    rcases hk x hx with h1 | h1
    · exact K.kids q ho x h1
    · exact fun o => absurd o.1 (by have := h1.1; omega)
  mono i a := by
    refine a.next fun p _ x hx => ?_
    simp only [Heap.kids, Heap.modify] at hx
    split at hx
    · next e => subst e; exact hk x hx
    · exact Or.inl hx

theorem Grows.alloc (K : LoadKeeps fo h S g) (hS : ∀ i, S i → i < h.next) {n : Node} (hn : n.items = []) : Grows fo h S g (g.alloc n).1 ∧ AllNew h (g.alloc n).1 (g.alloc n).2 := by
  have hx := K.next
  refine ⟨⟨(K.alloc hn hS).1, fun i a => a.next fun q _ x hx => ?_⟩, hx, fun y b => ?_⟩
  · simp only [Heap.kids, Heap.alloc] at hx
    split at hx
    · rw [hn] at hx; cases hx
    · exact Or.inl hx
  · have : y = (g.alloc n).2 := by
      induction b with
      | refl => rfl
      | step _ hc ih =>
        subst ih
        simp only [Heap.kids, Heap.alloc, if_true, hn] at hc
        cases hc
    rw [this]; exact hx

theorem Grows.setParent (K : LoadKeeps fo h S g) (hS : ∀ i, S i → i < h.next) {x : Id} (hx : h.next ≤ x) {r : Option PRef} : Grows fo h S g (g.setParent x r) :=
  Grows.modify K hS hx fun _ hy => Or.inl hy

theorem Grows.appendItem (K : LoadKeeps fo h S g) (hS : ∀ i, S i → i < h.next) {p x : Id} (hp : h.next ≤ p) (hx : AllNew h g x) : Grows fo h S g (ITree.appendItem g p x) := by
  unfold ITree.appendItem
  dsimp only
  split
  · have A : Grows fo h S g (g.modify p fun n => { n with items := [x], fams := some [(g.tag x, [x])], stale := none }) :=
      Grows.modify K hS hp fun y hy => Or.inr (by simp only [List.mem_singleton] at hy; subst hy; exact hx)
    exact A.trans (Grows.setParent A.keeps hS hx.1)
  · have A : Grows fo h S g (g.setItems p (g.kids p ++ [x])) := Grows.modify K hS hp fun y hy => by
      rcases List.mem_append.1 hy with h1 | h1
      · exact Or.inl h1
      · simp only [List.mem_singleton] at h1; subst h1; exact Or.inr hx
    have B := A.trans (Grows.modify (f := fun n => { n with fams := some (famAppend ((g.boundFams p).getD []) (g.tag x) x).1 }) A.keeps hS hp fun y hy => Or.inl hy)
    exact B.trans (Grows.setParent B.keeps hS hx.1)

mutual
theorem Grows.buildKids (hS : ∀ i, S i → i < h.next) : ∀ (ts : List Tree) {g : Heap} {q : Id}, LoadKeeps fo h S g → h.next ≤ q → Grows fo h S g (ITree.buildKids g q ts)
  | [], g, q, K, hq => by simpa [ITree.buildKids] using Grows.refl K
  | k :: rest, g, q, K, hq => by
    simp only [ITree.buildKids]
    have A := Grows.buildOne hS k K hq
    exact A.trans (Grows.buildKids hS rest A.keeps hq)
theorem Grows.buildOne (hS : ∀ i, S i → i < h.next) : ∀ (t : Tree) {g : Heap} {q : Id}, LoadKeeps fo h S g → h.next ≤ q → Grows fo h S g (ITree.buildOne g q t)
  | .node i t v f l ks, g, q, K, hq => by
    obtain ⟨A, B⟩ := Grows.alloc K hS (n := copyNode (.node i t v f l ks)) rfl
    simp only [ITree.buildOne]
    have C := A.trans (Grows.appendItem A.keeps hS hq B)
    exact C.trans (Grows.buildKids hS ks C.keeps B.1)
end

theorem Grows.copyItem (K : LoadKeeps fo h S g) (hS : ∀ i, S i → i < h.next) (x : Id) : Grows fo h S g (ITree.copyItem g x).1 ∧ AllNew h (ITree.copyItem g x).1 (ITree.copyItem g x).2 := by
  obtain ⟨A, B⟩ := Grows.alloc K hS (n := copyNode (g.tree x)) rfl
  unfold ITree.copyItem build
  have C := Grows.buildKids hS (g.tree x).kids A.keeps B.1
  exact ⟨A.trans C, C.mono _ B⟩

theorem Grows.extendOne (K : LoadKeeps fo h S g) (hS : ∀ i, S i → i < h.next) {p i : Id} (hp : h.next ≤ p) (hi : AllNew h g i) (idx : Nat) :
    Grows fo h S g (ITree.extendOne g p idx (.item i)) ∧ ∃ x, (ITree.extendOne g p idx (.item i)).kids p = ((ITree.extendOne g p idx (.item i)).kids p).dropLast ++ [x] ∧ AllNew h (ITree.extendOne g p idx (.item i)) x := by
  have A : Grows fo h S g (if (g.node i).parent.isSome then ITree.copyItem g i else (g, i)).1 ∧
      AllNew h (if (g.node i).parent.isSome then ITree.copyItem g i else (g, i)).1 (if (g.node i).parent.isSome then ITree.copyItem g i else (g, i)).2 := by
    split
    · exact Grows.copyItem K hS i
    · exact ⟨Grows.refl K, hi⟩
  unfold ITree.extendOne
  dsimp only
  generalize (if (g.node i).parent.isSome then ITree.copyItem g i else (g, i)) = r at A ⊢
  obtain ⟨g1, x⟩ := r
  obtain ⟨A, hx⟩ := A
  dsimp only at A hx ⊢
  generalize hF : famAppend ((g1.node p).fams.getD []) (g1.tag x) x = Fk
  have B : Grows fo h S g (g1.setFams p Fk.1) := A.trans (Grows.modify A.keeps hS hp fun y hy => Or.inl hy)
  have B2 : Grows fo h S g1 (g1.setFams p Fk.1) := Grows.modify A.keeps hS hp fun y hy => Or.inl hy
  have D : Grows fo h S g1 ((g1.setFams p Fk.1).setParent x (some ⟨p, idx, Fk.2, false⟩)) := B2.trans (Grows.setParent B2.keeps hS hx.1)
  generalize ((g1.setFams p Fk.1).setParent x (some ⟨p, idx, Fk.2, false⟩)) = g2 at D ⊢
  have E : Grows fo h S g2 (g2.setItems p (g2.kids p ++ [x])) := Grows.modify D.keeps hS hp fun y hy => by
    rcases List.mem_append.1 hy with h1 | h1
    · exact Or.inl h1
    · simp only [List.mem_singleton] at h1; subst h1; exact Or.inr (D.mono _ hx)
  refine ⟨(A.trans D).trans E, x, ?_, E.mono _ (D.mono _ hx)⟩
  have e : (g2.setItems p (g2.kids p ++ [x])).kids p = g2.kids p ++ [x] := by simp [Heap.setItems, Heap.kids, Heap.modify]
  rw [e, List.dropLast_concat]

theorem mem_preL {l : List Tree} {t : Tree} : t ∈ Tree.preL l ↔ ∃ k ∈ l, t ∈ k.pre := by
  induction l with
  | nil => simp [Tree.preL]
  | cons k ks ih => simp [Tree.preL, ih]

theorem snap_below (g : Heap) : ∀ (n : Nat) (x : Id), ∀ t ∈ (g.snap n x).pre, Below g x t.id
  | 0, x, t, ht => by
    simp only [Heap.snap, Tree.pre, Tree.preL, List.mem_singleton] at ht
    subst ht; exact .refl
  | n + 1, x, t, ht => by
    simp only [Heap.snap, Tree.pre, List.mem_cons] at ht
    rcases ht with rfl | ht
    · exact .refl
    · obtain ⟨k, hk, hk2⟩ := mem_preL.1 ht
      obtain ⟨c, hc, rfl⟩ := List.mem_map.1 hk
      exact Below.head hc (snap_below g n c t hk2)

theorem Grows.setFlags (hS : ∀ i, S i → i < h.next) (f : Flags) : ∀ (l : List Id) {g : Heap}, LoadKeeps fo h S g → (∀ x ∈ l, h.next ≤ x) → Grows fo h S g (ITree.setFlagsInit g f l)
  | [], g, K, _ => Grows.refl K
  | x :: xs, g, K, hl => by
    have A : Grows fo h S g (g.modify x fun n => { n with flags := n.flags ||| f }) := Grows.modify K hS (hl x List.mem_cons_self) fun y hy => Or.inl hy
    exact A.trans (Grows.setFlags hS f xs A.keeps fun y hy => hl y (List.mem_cons_of_mem _ hy))

theorem Grows.initLoop (hS : ∀ i, S i → i < h.next) (f : Flags) {p : Id} (hp : h.next ≤ p) : ∀ (sub : List Id) (idx : Nat) {g : Heap}, LoadKeeps fo h S g → (∀ i ∈ sub, AllNew h g i) →
    Grows fo h S g (ITree.initLoop g p idx f (sub.map Arg.item))
  | [], idx, g, K, _ => Grows.refl K
  | i :: sub, idx, g, K, hs => by
    obtain ⟨A, x, e, hx⟩ := Grows.extendOne K hS hp (hs i List.mem_cons_self) idx
    simp only [List.map_cons, ITree.initLoop, ITree.initStep]
    generalize ITree.extendOne g p idx (.item i) = g1 at A e hx ⊢
    have hl : (g1.kids p).getLast? = some x := by rw [e, List.getLast?_append]; simp
    rw [hl]
    dsimp only
    have B : Grows fo h S g (if f = 0#6 then g1 else ITree.setFlagsInit g1 f (x :: (g1.tree x).deep.map Tree.id)) := by
      split
      · exact A
      · refine A.trans (Grows.setFlags hS f _ A.keeps fun y hy => ?_)
        rcases List.mem_cons.1 hy with rfl | hy
        · exact hx.1
        · obtain ⟨t, ht, rfl⟩ := List.mem_map.1 hy
          refine hx.2 _ (snap_below g1 g1.next x t ?_)
          show t ∈ (g1.tree x).pre
          revert ht
          cases g1.tree x with
          | node i t v f l ks => intro ht; exact List.mem_cons_of_mem _ ht
    exact B.trans (Grows.initLoop hS f hp sub (idx + 1) B.keeps fun j hj => B.mono j (hs j (List.mem_cons_of_mem _ hj)))

theorem Grows.newItem (hS : ∀ i, S i → i < h.next) (K : LoadKeeps fo h S g) (t : Tag) (v : Val) (sub : List Id) (f : Flags) (hs : ∀ i ∈ sub, AllNew h g i) :
    Grows fo h S g (ITree.newItem g t v (sub.map Arg.item) f).1 ∧ AllNew h (ITree.newItem g t v (sub.map Arg.item) f).1 g.next := by
  obtain ⟨A, B⟩ := Grows.alloc K hS (n := { tag := t, value := v, flags := f }) rfl
  cases sub with
  | nil => exact ⟨A, B⟩
  | cons i sub =>
    have C : Grows fo h S (g.alloc { tag := t, value := v, flags := f }).1 ((g.alloc { tag := t, value := v, flags := f }).1.modify (g.alloc { tag := t, value := v, flags := f }).2 fun n => { n with fams := some [] }) :=
      Grows.modify A.keeps hS B.1 fun y hy => Or.inl hy
    have D := Grows.initLoop hS (f &&& Flags.deepMask) B.1 (i :: sub) 0 C.keeps fun j hj => C.mono j (A.mono j (hs j hj))
    exact ⟨(A.trans C).trans D, D.mono _ (C.mono _ B)⟩

theorem LoadKeeps.makes (hS : ∀ i, S i → i < h.next) : Makes (fun _ _ => True) (LoadKeeps fo h S) (AllNew h) where
  new {g} t v sub f lk K H _ := by
    obtain ⟨A, B⟩ := Grows.newItem hS K t v sub f H
    have e := newItem_fst g t v (sub.map Arg.item) f
    simp only [heapBuilder]
    cases lk with
    | none =>
      dsimp only
      generalize ITree.newItem g t v (sub.map Arg.item) f = r at A B e ⊢
      obtain ⟨h', o⟩ := r
      simp only at e; subst e
      exact ⟨A.keeps, B, A.mono⟩
    | some l =>
      dsimp only [ITree.newLink]
      generalize ITree.newItem g t v (sub.map Arg.item) f = r at A B e ⊢
      obtain ⟨h', o⟩ := r
      simp only at e; subst e
      have C := Grows.modify (q := g.next) (f := fun n => { n with flags := n.flags ||| Flags.linkRoot, link := some { file := l.file, path := l.path } }) A.keeps hS B.1 fun y hy => Or.inl hy
      exact ⟨C.keeps, C.mono _ B, fun i a => C.mono i (A.mono i a)⟩

/-- the files of a disk: loading them makes new objects, and loads their links -/
theorem LoadKeeps.disk (Z : Circular h fo S) (C : Core h) (N : NoZombie h) {gz : Gzip} {sha : List Char → List Char} {Nm : Names} {E : Env} {crc : List Char → Nat} {d : Disk} :
    ∀ (k : Nat) (g : Heap) (f : String), LoadKeeps fo h S g → LoadKeeps fo h S ((diskEnv gz sha Nm E crc d k).load g f).1
  | 0, g, f, K => K
  | k + 1, g, f, K => by
    have IH := LoadKeeps.disk Z C N (gz := gz) (sha := sha) (Nm := Nm) (E := E) (crc := crc) (d := d) k
    have A : LoadKeeps fo h S (loadFile heapBuilder gz sha Nm E true g d f).1 := by
      unfold loadFile
      split
      · exact K
      · exact ((LoadKeeps.makes (fo := fo) fun i si => (Z.root i si).1).text K fun _ _ _ _ => ⟨fun _ _ _ _ _ => trivial, fun _ _ _ _ _ => trivial⟩).1
    unfold diskEnv
    dsimp only
    generalize loadFile heapBuilder gz sha Nm E true g d f = r at A ⊢
    obtain ⟨h3, r⟩ := r
    cases r with
    | error e => exact A
    | ok y =>
      dsimp only at A ⊢
      cases hc : callLoadLinks (linkEnv (diskEnv gz sha Nm E crc d k)) false 201 k h3 y with
      | none => exact A
      | some q =>
        have B := quiet_call Z C N IH 201 k A y hc
        obtain ⟨h4, q⟩ := q
        cases q <;> exact B

end
end ITree
