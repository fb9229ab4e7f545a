import Verif.Proofs.Ready2
/-
Link roots that can be loaded in any order: the loop over the children of the source, and the whole call.
-/
namespace ITree
section
variable {h g f : Heap} {E A X Y : Id → Prop} {m k : Nat} {p : Id}

/-- loading the children of the source one after the other -/
theorem ready_loop {load : Heap → Id → Res Bool} {s : Id} (hAp : A p)
    (HL : ∀ g c, Core g → NoZombie g → AllFresh g → CanLoad g A m c → ∃ g1 b lk, load g c = (g1, .ok b) ∧ Touch (fun _ => False) A g g1 ∧ (∀ i, i < g.next → g1.par i = g.par i) ∧ CanLoad g1 A m c ∧ (g1.node c).link = some lk ∧ lk.loaded = true) :
    ∀ (es : List (LKey × Id)) (h : Heap) (ks : List LKey), Core h → NoZombie h → AllFresh h → p < h.next → h.isLinkRoot p = true → (h.flags p).has Flags.linked = false → s < h.next → h.isLinkRoot s = false →
    (∀ e ∈ es, e ∈ numbered h s) → (∀ e ∈ es, (h.flags e.2).has Flags.linked = false) → (∀ e ∈ es, h.isLinkRoot e.2 = true → CanLoad h A m e.2) →
    ∃ h' Ts, loadLoop load p s h (es.map Prod.snd) [] ks = (h', .ok ([], ks ++ es.map Prod.fst)) ∧ Touch (fun i => i = p) A h h' ∧ (∀ i, i < h.next → h'.par i = h.par i) ∧ (h'.node p).link = (h.node p).link ∧ h'.kids p = h.kids p ++ Ts.map Tree.id ∧
      (∀ T ∈ Ts, Rep h' T ∧ ∀ i ∈ T.ids, h.next ≤ i ∧ i < h'.next ∧ (h'.flags i).has Flags.linked = true) ∧ ShowsAll h (es.map Prod.snd) Ts := by
  intro es
  induction es with
  | nil =>
    intro h ks C Z F hp hpr hpl _ _ _ _ _
    exact ⟨h, [], by simp [loadLoop], .of C Z (.refl C) F (.refl _ _) (fun i e => e ▸ ⟨hpr, hpl⟩), fun _ _ => rfl, rfl, by simp, by simp, by simp [ShowsAll]⟩
  | cons e es ih =>
    intro h ks C Z F hp hpr hpl hs hsr hn hl hR
    obtain ⟨⟨t, m'⟩, c⟩ := e
    have hnc := hn ((t, m'), c) (by simp)
    obtain ⟨ck, ct, cf⟩ := (mem_numbered_iff C.wf).1 hnc
    have hcl := C.wf.kids_lt s c ck
    obtain ⟨h1, x, T, e1, T1, P1, px, t1, t2, t3, t4⟩ := linkedItem_ready (load := load) (A := A) (m := m) C Z F hcl (hl ((t, m'), c) (by simp)) (fun hr => hR ((t, m'), c) (by simp) hr) fun hr => HL h c C Z F (hR ((t, m'), c) (by simp) hr)
    have C1 := T1.keeps.core
    have Z1 := T1.keeps.nz Z
    have pW : ¬ (False ∨ (Waiting h p ∧ ¬ A p)) := fun e => (e.resolve_left id).2 hAp
    have sk1 : h1.kids s = h.kids s := T1.only.kids s hs (T1.free' hsr)
    have num1 : numbered h1 s = numbered h s := numbered_congr C.wf sk1 T1.only.tag
    have eT : h1.tagIdx c = (h1, .ok (.pair t m')) := by
      have hc1 : c ∈ h1.kids s := by rw [sk1]; exact ck
      obtain ⟨q, m2, -, -, e⟩ := tagIdx_of_fresh C1.wf ⟨s, hc1, T1.fresh s c hc1⟩
      have := tagIdx_numbered C1.wf (s := s) (c := c) (t := t) (n := m') (by rw [num1]; exact hnc) ⟨_, _, by rw [e]⟩
      rw [e] at this ⊢
      simp only [Except.ok.injEq, TagIdx.pair.injEq] at this
      rw [this.1, this.2]
    have hxl := t3 x (by rw [← t1]; cases T; simp [Tree.ids_node, Tree.id])
    have hb : ¬ Below h1 x p := by
      intro hb
      have hb1 : Below h1 T.id p := by rw [t1]; exact hb
      have := (t3 p ((below_iff_ids t2 p).1 hb1)).1
      omega
    have At := appendItem_attach C1.wf (p := p) px
    have K3 : LKeeps h1 (appendItem h1 p x) := ⟨At.keeps C1 (Nat.lt_of_lt_of_le hp T1.only.next) hxl.2.1 (Nat.le_refl _) px hb, fun s => (NI.appendItem s (p := p) (x := x) id id).sep⟩
    have F3 := T1.fresh.append1 C1.wf (p := p) px
    have ne : ∀ i, i < h.next → i ≠ x := fun i hi => by omega
    have kp1 : h1.kids p = h.kids p := T1.only.kids p hp pW
    have k3 : (appendItem h1 p x).kids p = h.kids p ++ [x] := by rw [At.kids_p, List.insertIdx_length_self, kp1]
    have Ah : ∀ i, i = p → A i := fun i e => e ▸ hAp
    have T3 : Touch (fun i => i = p) A h (appendItem h1 p x) :=
      (T1.wider (E := fun i => i = p) fun i e => e ▸ ⟨hpr, hpl⟩).trans (touch_append C1 Z1 K3 F3 ⟨by rw [T1.only.isRoot hp]; exact hpr, by rw [T1.only.flags p hp]; exact hpl⟩ At t1 t2 fun i hi => (t3 i hi).2.2) C Z Ah
    have P3 : ∀ i, i < h.next → (appendItem h1 p x).par i = h.par i := fun i hi => by rw [← P1 i hi]; exact (At.par_o i (ne i hi)).par
    have O3 := T3.only
    have num3 : numbered (appendItem h1 p x) s = numbered h s := numbered_congr C.wf (O3.kids s hs fun e => by
      rcases e with rfl | e
      · rw [hpr] at hsr; cases hsr
      · have := e.1.1; rw [hsr] at this; cases this) O3.tag
    have R3 : Rep (appendItem h1 p x) T := t2.congr fun i hi => by
      have := (t3 i hi).1
      exact ⟨At.tag i, At.value i, At.flags i, At.link i, At.kids_o i (by omega)⟩
    have n3 : ∀ i ∈ T.ids, h.next ≤ i ∧ i < (appendItem h1 p x).next ∧ ((appendItem h1 p x).flags i).has Flags.linked = true := fun i hi => by rw [At.next, At.flags]; exact t3 i hi
    have lk3 : ((appendItem h1 p x).node p).link = (h.node p).link := by rw [At.link]; exact T1.only.link p hp pW
    generalize hg : appendItem h1 p x = g at *
    have kl : ∀ e ∈ es, e.2 < h.next := fun e he => C.wf.kids_lt s e.2 ((mem_numbered_iff C.wf (t := e.1.1) (n := e.1.2)).1 (hn e (by simp [he]))).1
    obtain ⟨h', Ts, j1, j2, jP, j3, j4, j5, j6⟩ := ih g (ks ++ [(t, m')]) T3.keeps.core (T3.keeps.nz Z) F3 (Nat.lt_of_lt_of_le hp O3.next) (by rw [O3.isRoot hp]; exact hpr) (by rw [O3.flags p hp]; exact hpl)
      (Nat.lt_of_lt_of_le hs O3.next) (by rw [O3.isRoot hs]; exact hsr) (fun e he => by rw [num3]; exact hn e (by simp [he])) (fun e he => by rw [O3.flags _ (kl e he)]; exact hl e (by simp [he]))
      (fun e he hr => by rw [O3.isRoot (kl e he)] at hr; exact T3.ready C Z Ah (hR e (by simp [he]) hr))
    refine ⟨h', T :: Ts, ?_, T3.trans j2 C Z Ah, fun i hi => (jP i (Nat.lt_of_lt_of_le hi O3.next)).trans (P3 i hi), j3.trans lk3, by rw [j4, k3, List.map_cons, t1, List.append_assoc]; rfl, ?_, by simp [j6.1], ?_⟩
    · simp only [List.map_cons, loadLoop, e1, eT, List.map_nil, List.not_mem_nil, if_false]
      rw [show ((m' : Int).toNat) = m' from Int.toNat_natCast m', hg, j1]
      simp
    · intro U hU
      rcases List.mem_cons.1 hU with rfl | hU
      · refine ⟨R3.congr fun i hi => ?_, fun i hi => ?_⟩
        · obtain ⟨a, b, c⟩ := n3 i hi
          have nX := j2.free c
          exact ⟨j2.only.tag i b, j2.only.value i b, j2.only.flags i b, j2.only.link i b nX, j2.only.kids i b nX⟩
        · obtain ⟨a, b, c⟩ := n3 i hi
          exact ⟨a, Nat.lt_of_lt_of_le b j2.only.next, by rw [j2.only.flags i b]; exact c⟩
      · exact ⟨(j5 U hU).1, fun i hi => ⟨Nat.le_trans O3.next ((j5 U hU).2 i hi).1, ((j5 U hU).2 i hi).2⟩⟩
    · intro i d k hd hk
      cases i with
      | zero =>
        simp only [List.map_cons, List.getElem?_cons_zero, Option.some.injEq] at hd hk
        subst hd; subst hk
        exact t4
      | succ i =>
        simp only [List.map_cons, List.getElem?_cons_succ] at hd hk
        obtain ⟨e, he, rfl⟩ := List.mem_map.1 (List.mem_of_getElem? hd)
        exact T3.back C Z Ah (j6.2 i _ k hd hk) (kl e he) fun hr => ⟨_, hR e (by simp [he]) hr⟩

/-- loading a link root that is ready -/
theorem ready_loads (fe : FileEnv) : ∀ (m n : Nat) (h : Heap) (X : Id → Prop) (p : Id), Core h → NoZombie h → AllFresh h → CanLoad h X m p → m ≤ n →
    ∃ h' b lk, loadLinks (linkEnv fe) false n h p = (h', .ok b) ∧ Touch (fun _ => False) X h h' ∧ (∀ i, i < h.next → h'.par i = h.par i) ∧ CanLoad h' X m p ∧ (h'.node p).link = some lk ∧ lk.loaded = true ∧
      (b = true ↔ Waiting h p) ∧ (b = false → h' = h) := by
  intro m
  induction m with
  | zero => intro n h X p _ _ _ R; cases R
  | succ m ih =>
    intro n h X p C Z F R hm
    by_cases hd : CanLoad h X m p
    · obtain ⟨h', b, lk, a1, a2, a3, a4, a5⟩ := ih n h X p C Z F hd (by omega)
      exact ⟨h', b, lk, a1, a2, a3, a4.up, a5⟩
    have R0 := R
    obtain ⟨n, rfl⟩ : ∃ n', n = n' + 1 := ⟨n - 1, by omega⟩
    cases R with
    | @mk _ _ s lk nX a b d e f u v w l nn st =>
      rcases st with ⟨ld, kp⟩ | ⟨x, y, z, Ts, q⟩
      rotate_left
      · refine ⟨h, false, lk, loaded_again fe C F n e f x y v.to z, .refl C Z F, fun _ _ => rfl, R0, e, x, ?_, fun _ => rfl⟩
        refine ⟨fun h => (by cases h), ?_⟩
        rintro ⟨_, _, _, lk', e', x'⟩
        rw [e, Option.some.injEq] at e'
        subst e'
        rw [x] at x'; cases x'
      have hW : Waiting h p := ⟨b, d, kp, lk, e, ld⟩
      let A : Id → Prop := fun i => X i ∨ i = p
      have hAp : A p := .inr rfl
      have Ah : ∀ i, i = p → A i := fun i e => .inr e
      have hact : loadActive (linkEnv fe) h p lk false = (h, .ok true) := by rw [loadActive, if_pos (by simp [ld])]
      have hfind : (linkEnv fe).find h p = getTarget fe h p := rfl
      obtain ⟨g1, g2⟩ := getTarget_keeps C fe e f
      have okT := getTarget_ok C fe e f v.to
      rw [okT] at g1
      -- the path is written, the children are dropped
      let t := dropRoot (h.tag (h.root p)) lk.path
      have e1 : (h.setLink p fun l => { l with path := t }).kids p = [] := (setLink_structEq h p _).kids p |>.trans kp
      have e2 : numberKids (h.setLink p fun l => { l with path := t }) p = (h.setLink p fun l => { l with path := t }, .ok []) := by simp only [numberKids, e1]; rfl
      have K1 := setLink_keeps C p (fun l => { l with path := t }) fun l => rfl
      have S1 := setLink_structEq h p fun l => { l with path := t }
      have fl1 := setLink_flags h p fun l => { l with path := t }
      have li1 : ∀ i, ((h.setLink p fun l => { l with path := t }).node i).link = if i = p then ((h.node p).link).map (fun l => { l with path := t }) else (h.node i).link := fun i => by rw [setLink_link]; by_cases hh : i = p <;> simp [hh]
      have va1 : ∀ i, ((h.setLink p fun l => { l with path := t }).node i).value = (h.node i).value := fun i => by simp only [Heap.setLink, Heap.modify]; split <;> rfl
      have K2 := K1.trans (dropKids_keeps K1.core e1)
      obtain ⟨f1, f2, f3, f4, f5, f6, f7, f8, f9⟩ := dropKids_facts (h.setLink p fun l => { l with path := t }) p
      have kk : ∀ i, (dropKids (h.setLink p fun l => { l with path := t }) p).kids i = h.kids i := fun i => by
        rw [f2]; split
        · next e => rw [e, kp]
        · exact S1.kids i
      have F2 : AllFresh (dropKids (h.setLink p fun l => { l with path := t }) p) := (F.structEq S1).struct f4 (fun i => by rw [kk, S1.kids]) f8
      have va2 : ∀ i, ((dropKids (h.setLink p fun l => { l with path := t }) p).node i).value = (h.node i).value := fun i => by
        rw [← va1 i]; simp only [dropKids, Heap.modify]; split <;> rfl
      have pa2 : ∀ i, (dropKids (h.setLink p fun l => { l with path := t }) p).par i = h.par i := fun i => by
        simp only [Heap.par, f8, S1.parent]
      have O2 : LoadsOnly (fun i => i = p) h (dropKids (h.setLink p fun l => { l with path := t }) p) :=
        ⟨by rw [f1, S1.next], fun i _ => by rw [f4, S1.tag], fun i _ => va2 i, fun i _ => by rw [f6, fl1], fun i _ => pa2 i, fun i _ _ => kk i, fun i _ hi => by rw [f7, li1, if_neg hi]⟩
      have T2 : Touch (fun i => i = p) A h (dropKids (h.setLink p fun l => { l with path := t }) p) := .of C Z K2 F2 O2 fun i e => e ▸ ⟨b, d⟩
      have lk2 : ((dropKids (h.setLink p fun l => { l with path := t }) p).node p).link = some { lk with path := t } := by rw [f7, li1, if_pos rfl, e]; rfl
      have kp2 : (dropKids (h.setLink p fun l => { l with path := t }) p).kids p = [] := by rw [kk, kp]
      have eAll : loadLinks (linkEnv fe) false (n + 1) h p = takeOver (loadLinks (linkEnv fe) false n) (h.setLink p fun l => { l with path := t }) p s := by
        simp only [loadLinks, e, hact, hfind, g1]
        try rfl
      have eE : localItems (h.setLink p fun l => { l with path := t }) [] = [] := rfl
      rw [eAll]
      simp only [takeOver, e2, eE]
      have hs := v.lt C.wf (T2.only.root p a d).2
      have nsp : s ≠ p := fun e => by rw [e, b] at w; cases w
      have ks : (dropKids (h.setLink p fun l => { l with path := t }) p).kids s = (numbered h s).map Prod.snd := by rw [kk, numbered_items]
      generalize dropKids (h.setLink p fun l => { l with path := t }) p = h2 at *
      have num2 : numbered h2 s = numbered h s := numbered_congr C.wf (kk s) T2.only.tag
      have C2 := T2.keeps.core
      have Z2 := T2.keeps.nz Z
      have mem : ∀ e ∈ numbered h s, e.2 ∈ h.kids s := fun e he => ((mem_numbered_iff C.wf (t := e.1.1) (n := e.1.2)).1 he).1
      have kl : ∀ c ∈ h.kids s, c < h.next := fun c hc => C.wf.kids_lt s c hc
      have RA : ∀ c ∈ h.kids s, h.isLinkRoot c = true → CanLoad h A m c := fun c hc hr => (nn c hc hr).avoid (Nat.le_refl _) hd
      rw [ks]
      obtain ⟨h3, Ts, j1, j2, jP, j3, j4, j5, j6⟩ := ready_loop (load := loadLinks (linkEnv fe) false n) (p := p) (A := A) (m := m) (s := s) hAp
        (fun g c Cg Zg Fg Rg => by
          obtain ⟨g', b, lk, b1, b2, b3, b4, b5, b6, _⟩ := ih n g A c Cg Zg Fg Rg (by omega)
          exact ⟨g', b, lk, b1, b2, b3, b4, b5, b6⟩)
        (numbered h s) h2 [] C2 Z2 F2 (Nat.lt_of_lt_of_le a T2.only.next) (by rw [T2.only.isRoot a]; exact b) (by rw [T2.only.flags p a]; exact d)
        (Nat.lt_of_lt_of_le hs T2.only.next) (by rw [T2.only.isRoot hs]; exact w) (fun e he => by rw [num2]; exact he)
        (fun e he => by rw [T2.only.flags _ (kl _ (mem e he))]; exact l _ (mem e he))
        (fun e he hr => by rw [T2.only.isRoot (kl _ (mem e he))] at hr; exact T2.ready C Z Ah (RA _ (mem e he) hr))
      rw [j1]
      simp only [List.nil_append, List.filterMap_nil, List.foldl_nil]
      -- the link is marked as loaded
      let kys := (numbered h s).map Prod.fst
      let mark : LinkSt → LinkSt := fun l => { l with tags := (kys.map (·.1)).eraseDups, keys := kys, loaded := true }
      have T3 : Touch (fun i => i = p) A h h3 := T2.trans j2 C Z Ah
      have C3 := T3.keeps.core
      have Z3 := T3.keeps.nz Z
      have S4 := setLink_structEq h3 p mark
      have fl4 := setLink_flags h3 p mark
      have va4 : ∀ i, ((h3.setLink p mark).node i).value = (h3.node i).value := fun i => by simp only [Heap.setLink, Heap.modify]; split <;> rfl
      have K4 : LKeeps h3 (h3.setLink p mark) := setLink_keeps C3 p mark fun l => rfl
      have pa4 : ∀ i, (h3.setLink p mark).par i = h3.par i := fun i => by simp only [Heap.par, S4.parent]
      have li4 : ∀ i, i ≠ p → ((h3.setLink p mark).node i).link = (h3.node i).link := fun i hi => by rw [setLink_link, if_neg hi]
      have O4 : LoadsOnly (fun i => i = p) h3 (h3.setLink p mark) :=
        ⟨Nat.le_of_eq S4.next.symm, fun i _ => S4.tag i, fun i _ => va4 i, fun i _ => fl4 i, fun i _ => pa4 i, fun i _ _ => S4.kids i, fun i _ hi => li4 i hi⟩
      have a3 : p < h3.next := Nat.lt_of_lt_of_le a T3.only.next
      have T4 : Touch (fun i => i = p) A h3 (h3.setLink p mark) := .of C3 Z3 K4 (T3.fresh.structEq S4) O4 fun i e => e ▸ ⟨by rw [T3.only.isRoot a]; exact b, by rw [T3.only.flags p a]; exact d⟩
      have T : Touch (fun i => i = p) A h (h3.setLink p mark) := T3.trans T4 C Z Ah
      have T24 : Touch (fun i => i = p) A h2 (h3.setLink p mark) := j2.trans T4 C2 Z2 Ah
      have P : ∀ i, i < h.next → (h3.setLink p mark).par i = h.par i := fun i hi => by rw [pa4, jP i (Nat.lt_of_lt_of_le hi T2.only.next), pa2]
      have lk4 : ((h3.setLink p mark).node p).link = some (mark { lk with path := t }) := by rw [setLink_link, if_pos rfl, j3, lk2]; rfl
      have Rep4 : ∀ U ∈ Ts, Rep (h3.setLink p mark) U ∧ ∀ i ∈ U.ids, ((h3.setLink p mark).flags i).has Flags.linked = true := fun U hU => by
        obtain ⟨u1, u2⟩ := j5 U hU
        refine ⟨u1.congr fun i hi => ?_, fun i hi => by rw [fl4]; exact (u2 i hi).2.2⟩
        have ne : i ≠ p := fun e => by have := (u2 i hi).1; have := T2.only.next; omega
        exact ⟨S4.tag i, va4 i, fl4 i, li4 i ne, S4.kids i⟩
      have kp4 : (h3.setLink p mark).kids p = Ts.map Tree.id := by rw [S4.kids, j4, kp2, List.nil_append]
      generalize hg : h3.setLink p mark = h4 at *
      obtain ⟨r1, r2⟩ := T.only.root p a d
      have et : h4.tag (h4.root p) = h.tag (h.root p) := by rw [r1, T.only.tag _ r2]
      have eks : h4.kids s = h.kids s := T.only.kids s hs (T.free' w)
      have R4 : CanLoad h4 X (m + 1) p := by
        refine .mk (s := s) (lk := mark { lk with path := t }) nX (Nat.lt_of_lt_of_le a T.only.next) (by rw [T.only.isRoot a]; exact b) (by rw [T.only.flags p a]; exact d) lk4 f
          (by rw [et]; show dropRoot _ (dropRoot _ t) = dropRoot _ t; rw [u, u]) (by rw [et, r1]; show LeadsVia _ _ (dropRoot _ t) _; rw [u]; exact T.only.via C.wf T.hX v) (by rw [T.only.isRoot hs]; exact w)
          (fun c hc => by rw [eks] at hc; rw [T.only.flags c (kl c hc)]; exact l c hc)
          (fun c hc hr => by rw [eks] at hc; rw [T.only.isRoot (kl c hc)] at hr; exact (T.ready C Z Ah (RA c hc hr)).weaken fun i => .inl)
          (.inr ⟨rfl, by rw [et]; exact u, (congrArg (List.map Prod.fst) (numbered_congr C.wf eks T.only.tag)).symm, Ts, kp4, Rep4, ?_⟩)
        rw [eks]
        rw [numbered_items] at j6
        refine ⟨j6.1, fun i c U hc hU => ?_⟩
        have hm := List.mem_of_getElem? hc
        refine T24.shows C2 Z2 Ah (j6.2 i c U hc hU) (Nat.lt_of_lt_of_le (kl c hm) T2.only.next) fun hr => ?_
        rw [T2.only.isRoot (kl c hm)] at hr
        exact ⟨m, T2.ready C Z Ah (RA c hm hr)⟩
      refine ⟨h4, true, mark { lk with path := t }, ?_, ?_, P, R4, lk4, rfl, by simp [hW], fun h => by cases h⟩
      · rw [← hg]; rfl
      · refine ⟨T.keeps, T.fresh, T.only.mono ?_, fun _ => False.elim, fun i hi _ => ?_⟩
        · rintro i hi (rfl | ⟨x, y⟩)
          · exact .inr ⟨hW, nX⟩
          · exact .inr ⟨x, fun z => y (.inl z)⟩
        · by_cases hip : i = p
          · subst hip
            exact .inr ⟨lk, _, m + 1, e, lk4, rfl, rfl, R4⟩
          · rcases T.done i hi hip with x | ⟨l1, l2, k, x1, x2, x3, x4, x5⟩
            · exact .inl x
            · exact .inr ⟨l1, l2, k, x1, x2, x3, x4, x5.weaken fun i => .inl⟩
end
end ITree
