import Verif.Proofs.Frame
import Verif.Model.Wide
/-
The frame rule for lists, subtraction, `make_local`, `load_links` and loading (helper lemmas for Props/Wide).
-/
namespace ITree

open Json (Env)

/-- the invariant does not speak about links -/
def AnyLinks (I : Heap → Prop) : Prop := ∀ {h : Heap} {x : Id} (g : Node → Option LinkSt), I h → I (h.modify x fun n => { n with link := g n })

section
variable {I : Heap → Prop} {Ok : Id → Prop} {h : Heap} {q : Id}

theorem Frm.root (V : Frm I Ok) (S : I h) {x : Id} (hx : h.isLinkRoot x = true) : Ok x := by
  by_contra hn
  have L := (V.locked S hn).2
  simp only [Heap.isLinkRoot] at hx
  rw [hx] at L
  cases L

/-! ### lists -/

theorem Frm.setListLoop (V : Frm I Ok) (old : GetRes) : ∀ (as : List Arg) (i : Nat) {h : Heap}, I h → I (ITree.setListLoop h q old i as).1
  | [], i, h, S => S
  | a :: as, i, h, S => by
    unfold ITree.setListLoop
    dsimp only
    split
    · exact S
    · next o ho =>
      have A := V.idx S (x := o)
      generalize h.idx o = r at A ⊢
      obtain ⟨h1, r⟩ := r
      dsimp only at A ⊢
      split
      · exact A
      · exact A
      · next k =>
        have B := V.setItem A (q := q) (tg := .int k) (a := a)
        generalize ITree.setItem h1 q (.int k) a = s at B ⊢
        obtain ⟨h2, s⟩ := s
        dsimp only at B ⊢
        split
        · exact B
        · have C := V.setListLoop old as (i + 1) B
          generalize ITree.setListLoop h2 q old (i + 1) as = u at C ⊢
          obtain ⟨h3, u⟩ := u
          dsimp only at C ⊢
          split <;> exact C

theorem Frm.setList (V : Frm I Ok) (S : I h) {tg : Target} {as : List Arg} : I (ITree.setList h q tg as).1 := by
  unfold ITree.setList
  split
  · exact S
  · split
    · exact S
    · exact V.setListLoop _ _ _ S

theorem Frm.extendLists (V : Frm I Ok) (S : I h) {ds : List Shape} : I (ITree.extendLists h q ds).1 := by
  unfold ITree.extendLists
  split
  · exact S
  · exact V.extend (V.rebuildL ds S)

/-! ### subtraction -/

theorem Frm.subDelete (V : Frm I Ok) : ∀ (l : List Int) {h : Heap}, I h → I (ITree.subDelete h q l).1
  | [], h, S => S
  | i :: is, h, S => by
    have A := V.delItem S (q := q) (tg := .int i)
    unfold ITree.subDelete
    dsimp only
    generalize ITree.delItem h q (.int i) = r at A ⊢
    obtain ⟨h1, r⟩ := r
    dsimp only at A ⊢
    split
    · exact A
    · exact V.subDelete is A

mutual
theorem Frm.subItem (V : Frm I Ok) (O : SubOps) : ∀ (u : Tree) {h : Heap} (t : Id), I h → I (ITree.subItem O h t u).1
  | .node i tag value f l ks, h, t, S => by
    have A := V.copyItem S t
    have hn : h.next ≤ (ITree.copyItem h t).2 := Nat.le_refl _
    unfold ITree.subItem
    dsimp only
    generalize ITree.copyItem h t = c at A hn ⊢
    obtain ⟨h1, c⟩ := c
    dsimp only at A hn ⊢
    have B := V.subLoop O ks (new := c) [] (V.new (f := subHead O (h.tag t) tag (h.node t).value value) S A.1 hn)
    generalize ITree.subLoop O (h1.modify c (subHead O (h.tag t) tag (h.node t).value value)) c ks [] = r at B ⊢
    obtain ⟨h2, r⟩ := r
    dsimp only at B ⊢
    split
    · exact B
    · next del =>
      have C := V.subDelete (q := c) del.reverse B
      generalize ITree.subDelete h2 c del.reverse = u at C ⊢
      obtain ⟨h3, u⟩ := u
      dsimp only at C ⊢
      split <;> exact C
theorem Frm.subLoop (V : Frm I Ok) (O : SubOps) : ∀ (ks : List Tree) {h : Heap} {new : Id} (acc : List Int), I h → I (ITree.subLoop O h new ks acc).1
  | [], h, new, acc, S => S
  | k :: ks, h, new, acc, S => by
    have A := V.tagIdx S (x := k.id)
    unfold ITree.subLoop
    dsimp only
    generalize h.tagIdx k.id = r at A ⊢
    obtain ⟨h1, r⟩ := r
    dsimp only at A ⊢
    split
    · exact A
    · split
      · exact A
      · next tg _ =>
        split
        · next o _ =>
          have B := V.idx A (x := o)
          generalize h1.idx o = s at B ⊢
          obtain ⟨h2, s⟩ := s
          dsimp only at B ⊢
          split
          · exact B
          · exact B
          · exact V.subLoop O ks _ B
        · split
          · exact A
          · exact A
          · next o _ =>
            have B := V.subItem O k o A
            generalize ITree.subItem O h1 o k = s at B ⊢
            obtain ⟨h2, s⟩ := s
            dsimp only at B ⊢
            split
            · exact B
            · next x =>
              have C := V.setItem B (q := new) (tg := tg) (a := .item x)
              generalize ITree.setItem h2 new tg (.item x) = u at C ⊢
              obtain ⟨h3, u⟩ := u
              dsimp only at C ⊢
              split
              · exact C
              · exact V.subLoop O ks _ C
end

/-! ### make_local -/

theorem Frm.putLocal (V : Frm I Ok) (S : I h) {y : Id} {k m : Int} {t : Tag} (hq : Ok q) : I (ITree.putLocal h q y k t m).1 := by
  unfold ITree.putLocal
  dsimp only
  split
  · exact V.setItems S hq
  · exact V.setParent (V.setFams (V.setItems S hq) hq)

theorem Frm.makeLocal (V : Frm I Ok) (S : I h) {x : Id} {sub : Bool} : I (ITree.makeLocal h x sub).1 := by
  unfold ITree.makeLocal
  split
  · exact S
  · next r hr =>
    split
    · exact S
    · split
      · exact S
      · next hl =>
        have hq : Ok r.pid := V.root S (by simpa using hl)
        have A : I (convertLocal h x sub).1 := by
          have B := V.alloc S (localNode h x)
          exact V.buildKids _ B.1 B.2
        dsimp only
        generalize convertLocal h x sub = c at A ⊢
        obtain ⟨h1, y⟩ := c
        dsimp only at A ⊢
        have B := V.idx A (x := x)
        generalize h1.idx x = s at B ⊢
        obtain ⟨h2, s⟩ := s
        dsimp only at B ⊢
        split
        · exact B
        · exact B
        · have C := V.tagIdx B (x := x)
          generalize h2.tagIdx x = u at C ⊢
          obtain ⟨h3, u⟩ := u
          dsimp only at C ⊢
          split
          · exact C
          · exact C
          · exact C
          · exact V.putLocal C hq

/-! ### load_links -/

theorem Frm.itemsLoop (V : Frm I Ok) (f : Id → Bool) : ∀ (l : List Id) {h : Heap} (cs : List (Tag × Nat)), I h → I (ITree.itemsLoop f h l cs).1
  | [], h, cs, S => S
  | x :: xs, h, cs, S => by
    unfold ITree.itemsLoop
    split
    · exact S
    · next n cs' _ =>
      split
      · exact S
      · next r _ =>
        split
        · exact S
        · have A := V.itemsLoop f xs cs' (V.setParent S (x := x) (r := some { r with famC := n }))
          dsimp only
          generalize ITree.itemsLoop f (h.setParent x (some { r with famC := n })) xs cs' = u at A ⊢
          obtain ⟨h1, u⟩ := u
          dsimp only at A ⊢
          split <;> exact A

theorem Frm.keysOf (V : Frm I Ok) (S : I h) {f : Id → Bool} : I (ITree.keysOf h q f).1 := by
  unfold ITree.keysOf ITree.itemsOf
  dsimp only
  split
  · exact S
  · exact V.itemsLoop f _ _ S

theorem Frm.build (V : Frm I Ok) (S : I h) (t : Tree) : I (ITree.build h t).1 := by
  have B := V.alloc S (copyNode t)
  exact V.buildKids _ B.1 B.2

theorem Frm.linkedItem (V : Frm I Ok) {load : Heap → Id → Res Bool} (hl : ∀ h x, I h → Ok x → I (load h x).1) (S : I h) {c : Id} : I (ITree.linkedItem load h c).1 := by
  unfold ITree.linkedItem
  split
  · next hr =>
    have A := hl h c S (V.root S hr)
    dsimp only
    generalize load h c = r at A ⊢
    obtain ⟨h1, r⟩ := r
    dsimp only at A ⊢
    split
    · exact A
    · exact A
    · exact V.grow (by decide) (V.copyItem A c).1
  · split
    · exact S
    · split
      · exact V.build S _
      · exact S

theorem Frm.putOut (V : Frm I Ok) (N : AnyLinks I) (S : I h) {new : Id} (hq : Ok q) (o : LOut Id) : I (ITree.putOut new q h o) := by
  cases o with
  | new _ => exact V.appendItem S hq
  | old x k c =>
    unfold ITree.putOut
    refine V.appendItem ?_ hq
    split
    · exact N (fun _ => some { cover := some new }) S
    · exact S

theorem Frm.foldl {α : Type} {f : Heap → α → Heap} (H : ∀ h a, I h → I (f h a)) : ∀ (l : List α) {h : Heap}, I h → I (l.foldl f h)
  | [], _, S => S
  | a :: l, h, S => Frm.foldl H l (H h a S)

theorem Frm.loadLoop (V : Frm I Ok) (N : AnyLinks I) {load : Heap → Id → Res Bool} (hl : ∀ h x, I h → Ok x → I (load h x).1) {s : Id} (hq : Ok q) :
    ∀ (cs : List Id) {h : Heap} (E : List (LEntry Id)) (ks : List LKey), I h → I (ITree.loadLoop load q s h cs E ks).1
  | [], h, E, ks, S => S
  | c :: cs, h, E, ks, S => by
    have A := V.linkedItem hl S (c := c)
    unfold ITree.loadLoop
    dsimp only
    generalize ITree.linkedItem load h c = n at A ⊢
    obtain ⟨h1, n⟩ := n
    dsimp only at A ⊢
    split
    · exact A
    · next x =>
      have B := V.tagIdx A (x := c)
      generalize h1.tagIdx c = g at B ⊢
      obtain ⟨h2, g⟩ := g
      dsimp only at B ⊢
      split
      · exact B
      · exact B
      · exact B
      · split
        · exact V.loadLoop N hl hq cs _ _ (Frm.foldl (I := I) (f := ITree.putOut x q) (fun h o S => V.putOut N S hq o) _ B)
        · exact V.loadLoop N hl hq cs _ _ (V.appendItem B hq)

theorem Frm.takeOver (V : Frm I Ok) (N : AnyLinks I) {load : Heap → Id → Res Bool} (hl : ∀ h x, I h → Ok x → I (load h x).1) (S : I h) {s : Id} (hq : Ok q) : I (ITree.takeOver load h q s).1 := by
  have A : I (numberKids h q).1 := V.itemsLoop _ _ _ S
  unfold ITree.takeOver
  dsimp only
  generalize numberKids h q = r at A ⊢
  obtain ⟨h1, r⟩ := r
  dsimp only at A ⊢
  split
  · exact A
  · next l =>
    have B : I (dropKids h1 q) := V.kids A hq fun _ => ⟨rfl, rfl, rfl, rfl, rfl⟩
    have C := V.loadLoop N hl (s := s) hq ((dropKids h1 q).kids s) (localItems h1 l) [] B
    generalize ITree.loadLoop load q s (dropKids h1 q) ((dropKids h1 q).kids s) (localItems h1 l) [] = u at C ⊢
    obtain ⟨h2, u⟩ := u
    dsimp only at C ⊢
    split
    · exact C
    · next E' ks =>
      have D : I ((E'.filterMap (·.2)).foldl (fun h x => ITree.appendItem h q x) h2) := Frm.foldl (I := I) (f := fun h x => ITree.appendItem h q x) (fun h x S => V.appendItem S hq) _ C
      exact N (x := q) (fun n => n.link.map fun l => { l with tags := (ks.map (·.1)).eraseDups, keys := ks, loaded := true }) D

theorem Frm.loadActive (V : Frm I Ok) {env : LinkEnv} (hf : ∀ h p, I h → I (env.find h p).1) (S : I h) {lk : LinkSt} {force : Bool} : I (ITree.loadActive env h q lk force).1 := by
  unfold ITree.loadActive
  split
  · exact S
  · split
    · exact S
    · exact S
    · split
      · exact S
      · have A := hf h q S
        dsimp only
        generalize env.find h q = r at A ⊢
        obtain ⟨h1, r⟩ := r
        dsimp only at A ⊢
        split
        · exact A
        · next s =>
          split
          · exact A
          · split
            · exact A
            · have B := V.keysOf A (q := s) (f := fun _ => true)
              generalize ITree.keysOf h1 s (fun _ => true) = u at B ⊢
              obtain ⟨h2, u⟩ := u
              dsimp only at B ⊢
              split <;> exact B

theorem Frm.loadLinks (V : Frm I Ok) (N : AnyLinks I) {env : LinkEnv} (hf : ∀ h p, I h → I (env.find h p).1) (force : Bool) : ∀ (n : Nat) (h : Heap) (p : Id), I h → Ok p → I (ITree.loadLinks env force n h p).1
  | 0, h, p, S, _ => S
  | n + 1, h, p, S, hp => by
    unfold ITree.loadLinks
    split
    · exact S
    · next lk _ =>
      have A := V.loadActive hf S (q := p) (lk := lk) (force := force)
      dsimp only
      generalize ITree.loadActive env h p lk force = a at A ⊢
      obtain ⟨h1, a⟩ := a
      dsimp only at A ⊢
      split
      · exact A
      · exact A
      · have B := hf h1 p A
        generalize env.find h1 p = f at B ⊢
        obtain ⟨h2, f⟩ := f
        dsimp only at B ⊢
        split
        · exact B
        · exact V.takeOver N (V.loadLinks N hf force n) B hp

theorem Frm.loadLinksDel (V : Frm I Ok) (N : AnyLinks I) {env : LinkEnv} (hf : ∀ h p, I h → I (env.find h p).1) (force : Bool) : ∀ (n : Nat) (h : Heap) (p : Id), I h → Ok p → I (ITree.loadLinksDel env force n h p).1
  | 0, h, p, S, _ => S
  | n + 1, h, p, S, hp => by
    unfold ITree.loadLinksDel
    split
    · exact S
    · next lk _ =>
      have A := V.loadActive hf S (q := p) (lk := lk) (force := force)
      dsimp only
      generalize ITree.loadActive env h p lk force = a at A ⊢
      obtain ⟨h1, a⟩ := a
      dsimp only at A ⊢
      split
      · exact A
      · exact A
      · have B := hf h1 p A
        generalize env.find h1 p = f at B ⊢
        obtain ⟨h2, f⟩ := f
        dsimp only at B ⊢
        split
        · exact V.takeOver N (V.loadLinksDel N hf force n) B hp
        · split
          · exact B
          · next r _ =>
            have C := V.remove B (q := r) (x := p)
            generalize ITree.remove h2 r p = u at C ⊢
            obtain ⟨h3, u⟩ := u
            dsimp only at C ⊢
            split <;> exact C

theorem Frm.loadBelow (V : Frm I Ok) (N : AnyLinks I) {env : LinkEnv} (hf : ∀ h p, I h → I (env.find h p).1) (force : Bool) (n : Nat) :
    ∀ (k : Nat) {h : Heap} (st : List (Id × Nat)) (b : Bool), I h → ∀ r, ITree.loadBelow env force n k h st b = some r → I r.1
  | 0, h, st, b, S, r, e => by simp [ITree.loadBelow] at e
  | k + 1, h, [], b, S, r, e => by simp only [ITree.loadBelow, Option.some.injEq] at e; subst e; exact S
  | k + 1, h, (c, i) :: st, b, S, r, e => by
    unfold ITree.loadBelow at e
    split at e
    · exact V.loadBelow N hf force n k st b S r e
    · next x _ =>
      have A : I (if h.isLinkRoot x then ITree.loadLinks env force n h x else (h, .ok false)).1 := by
        split
        · next hr => exact V.loadLinks N hf force n h x S (V.root S hr)
        · exact S
      dsimp only at e
      generalize (if h.isLinkRoot x then ITree.loadLinks env force n h x else (h, .ok false)) = u at A e
      obtain ⟨h1, u⟩ := u
      dsimp only at A e
      split at e
      · simp only [Option.some.injEq] at e; subst e; exact A
      · exact V.loadBelow N hf force n k _ _ A r e

theorem Frm.loadBelowDel (V : Frm I Ok) (N : AnyLinks I) {env : LinkEnv} (hf : ∀ h p, I h → I (env.find h p).1) (force : Bool) (n : Nat) :
    ∀ (k : Nat) {h : Heap} (st : List (Id × Nat)) (b : Bool), I h → ∀ r, ITree.loadBelowDel env force n k h st b = some r → I r.1
  | 0, h, st, b, S, r, e => by simp [ITree.loadBelowDel] at e
  | k + 1, h, [], b, S, r, e => by simp only [ITree.loadBelowDel, Option.some.injEq] at e; subst e; exact S
  | k + 1, h, (c, i) :: st, b, S, r, e => by
    unfold ITree.loadBelowDel at e
    split at e
    · exact V.loadBelowDel N hf force n k st b S r e
    · next x _ =>
      have A : I (if h.isLinkRoot x then ITree.loadLinksDel env force n h x else (h, .ok false)).1 := by
        split
        · next hr => exact V.loadLinksDel N hf force n h x S (V.root S hr)
        · exact S
      dsimp only at e
      generalize (if h.isLinkRoot x then ITree.loadLinksDel env force n h x else (h, .ok false)) = u at A e
      obtain ⟨h1, u⟩ := u
      dsimp only at A e
      split at e
      · simp only [Option.some.injEq] at e; subst e; exact A
      · exact V.loadBelowDel N hf force n k _ _ A r e

theorem Frm.callLoadLinks (V : Frm I Ok) (N : AnyLinks I) {env : LinkEnv} (hf : ∀ h p, I h → I (env.find h p).1) (force : Bool) (n k : Nat) (S : I h) {r : Res Bool}
    (e : ITree.callLoadLinks env force n k h q = some r) : I r.1 := by
  unfold ITree.callLoadLinks at e
  split at e
  · simp only [Option.some.injEq] at e; subst e; exact S
  · split at e
    · next hr => simp only [Option.some.injEq] at e; subst e; exact V.loadLinks N hf force _ h q S (V.root S hr)
    · exact V.loadBelow N hf force _ k _ _ S r e

theorem Frm.callLoadLinksDel (V : Frm I Ok) (N : AnyLinks I) {env : LinkEnv} (hf : ∀ h p, I h → I (env.find h p).1) (force : Bool) (n k : Nat) (S : I h) {r : Res Bool}
    (e : ITree.callLoadLinksDel env force n k h q = some r) : I r.1 := by
  unfold ITree.callLoadLinksDel at e
  split at e
  · simp only [Option.some.injEq] at e; subst e; exact S
  · split at e
    · next hr => simp only [Option.some.injEq] at e; subst e; exact V.loadLinksDel N hf force _ h q S (V.root S hr)
    · exact V.loadBelowDel N hf force _ k _ _ S r e

/-! ### files -/

theorem Frm.new_ (V : Frm I Ok) (S : I h) {t : Tag} {v : Val} {sub : List Id} {f : Flags} {lk : Option LinkSt} : I (heapBuilder.new h t v sub f lk).1 := by
  simp only [heapBuilder]
  cases lk with
  | none =>
    have B := V.newItem S (t := t) (v := v) (f := f) (sub := sub.map Arg.item)
    dsimp only
    generalize ITree.newItem h t v (sub.map Arg.item) f = r at B ⊢
    obtain ⟨h', o⟩ := r
    cases o <;> exact B
  | some l =>
    have B := V.newLink S (t := t) (v := v) (f := f) (sub := sub.map Arg.item) (file := l.file) (path := l.path)
    dsimp only
    generalize ITree.newLink h t v (sub.map Arg.item) f l.file l.path = r at B ⊢
    obtain ⟨h', o⟩ := r
    cases o <;> exact B

variable {N : Names} {E : Env}

theorem Frm.makeKids (V : Frm I Ok) : ∀ (es : List (Entry Id)) {h : Heap}, I h → I (ITree.makeKids heapBuilder N E h es).1
  | [], h, S => S
  | .item i :: es, h, S => by
    have A := V.makeKids es S
    unfold ITree.makeKids
    generalize ITree.makeKids heapBuilder N E h es = r at A ⊢
    obtain ⟨h', o⟩ := r
    cases o <;> exact A
  | .raw row :: es, h, S => by
    unfold ITree.makeKids
    split
    · exact S
    · next t v f lk _ =>
      have A := V.makeKids es (V.new_ S (t := t) (v := v) (sub := []) (f := f) (lk := lk))
      dsimp only
      generalize ITree.makeKids heapBuilder N E (heapBuilder.new h t v [] f lk).1 es = r at A ⊢
      obtain ⟨h', o⟩ := r
      cases o <;> exact A

/-- both the state delivered and the state of the loader -/
def Both (I : Heap → Prop) (r : Heap × Except SErr (LoadSt Heap Id)) : Prop := I r.1 ∧ ∀ x, r.2 = .ok x → I x.s

theorem Frm.popLevel (V : Frm I Ok) (x : LoadSt Heap Id) (S : I x.s) : Both I (ITree.popLevel heapBuilder N E x) := by
  unfold ITree.popLevel
  split
  · next top row more rest _ =>
    split
    · exact ⟨S, fun x e => by cases e⟩
    · next t v f lk _ =>
      have A := V.makeKids (N := N) (E := E) top.reverse S
      generalize ITree.makeKids heapBuilder N E x.s top.reverse = r at A ⊢
      obtain ⟨h', o⟩ := r
      cases o with
      | error e => exact ⟨A, fun x e => by cases e⟩
      | ok l =>
        have B := V.new_ A (t := t) (v := v) (sub := l) (f := f) (lk := lk)
        exact ⟨B, fun x e => by cases e; exact B⟩
  · exact ⟨S, fun x e => by cases e⟩
  · exact ⟨S, fun x e => by cases e⟩

theorem Frm.popN (V : Frm I Ok) : ∀ (n : Nat) (x : LoadSt Heap Id), I x.s → Both I (ITree.popN heapBuilder N E n x)
  | 0, x, S => ⟨S, fun y e => by cases e; exact S⟩
  | n + 1, x, S => by
    have A := V.popLevel (N := N) (E := E) x S
    unfold ITree.popN
    generalize ITree.popLevel heapBuilder N E x = r at A ⊢
    obtain ⟨h', o⟩ := r
    cases o with
    | error e => exact ⟨A.1, fun x e => by cases e⟩
    | ok y => exact V.popN n y (A.2 y rfl)

theorem Frm.loadRow (V : Frm I Ok) (x : LoadSt Heap Id) (S : I x.s) (row : Json.J) : Both I (ITree.loadRow heapBuilder N E x row) := by
  unfold ITree.loadRow
  split
  · next d r =>
    split
    · exact ⟨S, fun x e => by cases e⟩
    · next top rest _ =>
      split
      · exact ⟨S, fun y e => by cases e; exact S⟩
      · split
        · exact ⟨S, fun y e => by cases e; exact S⟩
        · split
          · have A := V.popN (N := N) (E := E) ((rest.length : Int) - d).toNat x S
            generalize ITree.popN heapBuilder N E ((rest.length : Int) - d).toNat x = u at A ⊢
            obtain ⟨h', o⟩ := u
            cases o with
            | error e => exact ⟨A.1, fun x e => by cases e⟩
            | ok y =>
              have B := A.2 y rfl
              dsimp only
              split
              · exact ⟨B, fun z e => by cases e; exact B⟩
              · exact ⟨B, fun x e => by cases e⟩
          · exact ⟨S, fun x e => by cases e⟩
  · exact ⟨S, fun x e => by cases e⟩

theorem Frm.loadRows (V : Frm I Ok) : ∀ (rows : List Json.J) (x : LoadSt Heap Id), I x.s → Both I (ITree.loadRows heapBuilder N E x rows)
  | [], x, S => ⟨S, fun y e => by cases e; exact S⟩
  | r :: rs, x, S => by
    have A := V.loadRow (N := N) (E := E) x S r
    unfold ITree.loadRows
    generalize ITree.loadRow heapBuilder N E x r = u at A ⊢
    obtain ⟨h', o⟩ := u
    cases o with
    | error e => exact ⟨A.1, fun x e => by cases e⟩
    | ok y => exact V.loadRows rs y (A.2 y rfl)

theorem Frm.fromRaw (V : Frm I Ok) (S : I h) (rows : List Json.J) : I (ITree.fromRaw heapBuilder N E h rows).1 := by
  have A := V.loadRows (N := N) (E := E) rows { s := h, levels := [[]], it := none } S
  unfold ITree.fromRaw
  generalize ITree.loadRows heapBuilder N E { s := h, levels := [[]], it := none } rows = u at A ⊢
  obtain ⟨h', o⟩ := u
  cases o with
  | error e => exact A.1
  | ok x =>
    have B := V.popN (N := N) (E := E) (x.levels.length - 1) x (A.2 x rfl)
    dsimp only
    generalize ITree.popN heapBuilder N E (x.levels.length - 1) x = u at B ⊢
    obtain ⟨h'', o⟩ := u
    cases o with
    | error e => exact B.1
    | ok y =>
      have C := B.2 y rfl
      dsimp only
      split <;> exact C

theorem Frm.loadsText (V : Frm I Ok) (S : I h) {sha : List Char → List Char} {c : Bool} {text : List Char} : I (ITree.loadsText heapBuilder sha N E c h text).1 := by
  unfold ITree.loadsText
  split
  · exact S
  · exact V.fromRaw S _

theorem Frm.loadFile (V : Frm I Ok) (S : I h) {gz : Gzip} {sha : List Char → List Char} {c : Bool} {d : Disk} {path : String} : I (ITree.loadFile heapBuilder gz sha N E c h d path).1 := by
  unfold ITree.loadFile
  split
  · exact S
  · exact V.loadsText S

theorem AnyLinks.setLink (L : AnyLinks I) (S : I h) {f : LinkSt → LinkSt} : I (h.setLink q f) := L (x := q) (fun n => n.link.map f) S

theorem Frm.targetIn (L : AnyLinks I) (S : I h) {path : List Tag} {r : Id} : I (ITree.targetIn h q path r).1 := by
  unfold ITree.targetIn
  split
  · exact S
  · split
    · dsimp only
      split
      · exact AnyLinks.setLink L S
      · exact AnyLinks.setLink L S
    · exact S

theorem Frm.getTarget (L : AnyLinks I) {fe : FileEnv} (hf : ∀ h f, I h → I (fe.load h f).1) (S : I h) : I (ITree.getTarget fe h q).1 := by
  unfold ITree.getTarget
  split
  · exact S
  · split
    · exact Frm.targetIn L S
    · next f _ =>
      split
      · exact S
      · have A := hf h f S
        dsimp only
        generalize fe.load h f = r at A ⊢
        obtain ⟨h1, r⟩ := r
        dsimp only at A ⊢
        split
        · exact A
        · exact Frm.targetIn L (AnyLinks.setLink L A)

theorem Frm.diskEnv (V : Frm I Ok) (L : AnyLinks I) {gz : Gzip} {sha : List Char → List Char} {crc : List Char → Nat} {d : Disk} : ∀ (k : Nat) (h : Heap) (f : String), I h → I ((ITree.diskEnv gz sha N E crc d k).load h f).1
  | 0, h, f, S => S
  | k + 1, h, f, S => by
    have A := V.loadFile S (N := N) (E := E) (gz := gz) (sha := sha) (c := true) (d := d) (path := f)
    simp only [ITree.diskEnv]
    generalize ITree.loadFile heapBuilder gz sha N E true h d f = r at A ⊢
    obtain ⟨h1, r⟩ := r
    cases r with
    | error e => exact A
    | ok y =>
      dsimp only
      generalize ho : ITree.callLoadLinks (linkEnv (ITree.diskEnv gz sha N E crc d k)) false 201 k h1 y = o
      have B := fun r hr => V.callLoadLinks L (env := linkEnv (ITree.diskEnv gz sha N E crc d k)) (fun h p S => Frm.getTarget L (V.diskEnv L k) S) false 201 k A (q := y) (r := r) (ho.trans hr)
      cases o with
      | none => exact A
      | some r =>
        obtain ⟨h2, r⟩ := r
        have C := B _ rfl
        cases r <;> exact C

/-- a call that is no call of Model/Step or Model/More -/
theorem Frm.wide (V : Frm I Ok) (L : AnyLinks I) (S : I h) {W : Surround} {a : Wide} {h' : Heap} (ha : ∀ b, a ≠ .act b) (e : wideStep W h a = some h') : I h' := by
  cases a with
  | act b => exact absurd rfl (ha b)
  | setList p tg as => simp only [wideStep, Option.some.injEq] at e; subst e; exact V.setList S
  | extendLists p ds => simp only [wideStep, Option.some.injEq] at e; subst e; exact V.extendLists S
  | sub t u => simp only [wideStep, Option.some.injEq] at e; subst e; exact V.subItem _ _ _ S
  | makeLocal x s => simp only [wideStep, Option.some.injEq] at e; subst e; exact V.makeLocal S
  | loads t c => simp only [wideStep, Option.some.injEq] at e; subst e; exact V.loadsText S
  | load d p c => simp only [wideStep, Option.some.injEq] at e; subst e; exact V.loadFile S
  | loadLinks d k x force del =>
    simp only [wideStep] at e
    cases del with
    | true =>
      simp only [if_true, Option.map_eq_some_iff] at e
      obtain ⟨r, hr, rfl⟩ := e
      exact V.callLoadLinksDel L (fun h p S => Frm.getTarget L (V.diskEnv L k) S) force _ _ S hr
    | false =>
      simp only [Bool.false_eq_true, if_false, Option.map_eq_some_iff] at e
      obtain ⟨r, hr, rfl⟩ := e
      exact V.callLoadLinks L (fun h p S => Frm.getTarget L (V.diskEnv L k) S) force _ _ S hr

end

end ITree
