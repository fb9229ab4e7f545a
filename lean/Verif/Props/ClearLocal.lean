import Verif.Proofs.ClearLocal
import Verif.Props.FindLink
import Verif.Props.Reorder
/-
C16: `clear(local_only=True)` on link roots.
-/
namespace ITree

theorem root_protected {h : Heap} {p : Id} (hl : h.isLinkRoot p = true) : h.isProtected p = true := by
  simp only [Heap.isLinkRoot, Heap.isProtected, Flags.has, Flags.linkRoot, Flags.linked, Flags.treeProtected, Flags.readOnlyTree, Flags.placeholder] at hl ⊢
  revert hl; generalize h.flags p = f; revert f; decide

/-- C16, C01, C02. What `p.clear(keep, local_only=True)` does on any link root of a reachable state: the children named by `swept` are taken out (they have no parent afterwards), the others stay in their order, the
call is refused with a PermissionError exactly if `swept` says so; if it is not refused the value of `p` is dropped unless `keep`.  Nothing else changes and everything stays consistent. -/
theorem C16_clear_local {ms : ModelSet} {h : Heap} (R : Reach ms h) {p : Id} (hl : h.isLinkRoot p = true) (keep : Bool) :
    let q := swept (fun x => (h.flags x).has Flags.linked) (fun x => (h.flags x).has Flags.placeholder) (h.linkLoaded p) false (h.kids p)
    let h' := (clearLocal h p keep).1
    (clearLocal h p keep).2 = (if q.2.2 then .error .permission else .ok ()) ∧ h'.kids p = q.2.1 ∧ (∀ i, i ≠ p → h'.kids i = h.kids i) ∧
      (∀ x ∈ q.1, h'.par x = none) ∧ (∀ x, x ∉ q.1 → h'.par x = h.par x) ∧ (∀ i, h'.tag i = h.tag i ∧ h'.flags i = h.flags i ∧ (h'.node i).link = (h.node i).link) ∧
      (∀ i, (h'.node i).value = if i = p ∧ keep = false ∧ q.2.2 = false then .noValue else (h.node i).value) ∧ WF h' ∧ Forest h' ∧ Aligned h' p := by
  intro q h'
  have C := R.core
  have htd : ∀ x ∈ h.kids p, ∃ k : Int, -1 ≤ k ∧ tdGet (h.tag x) ((h.kids p).map fun c => (h.tag c, (-1 : Int))) = some k := by
    intro x hx
    refine ⟨-1, le_refl _, ?_⟩
    generalize h.kids p = l at hx
    induction l with
    | nil => simp at hx
    | cons a l ih =>
      simp only [List.map_cons, tdGet]
      split
      · rfl
      · next ne => exact ih ((List.mem_cons.1 hx).resolve_left fun e => ne (by rw [e]))
  obtain ⟨g, e1, e2, S⟩ := clearLocalLoop_spec (h.linkLoaded p) _ _ ((h.kids p).length + 1) [] (h.kids p) false h _ C hl (root_protected hl) rfl (fun _ => rfl) (fun _ => rfl) rfl (Nat.lt_succ_self _) htd
  change clearLocalLoop p ((h.kids p).length + 1) h 0 false _ = _ at e1
  change _ = (g, sweptRes q.2.2) at e1
  change g.kids p = [] ++ q.2.1 at e2
  rw [List.nil_append] at e2
  change Swept h g p q.1 at S
  have K := S.keeps.core
  cases hq : q.2.2 with
  | true =>
    have hr : clearLocal h p keep = (g, .error .permission) := by simp only [clearLocal, hl, if_true, clearLocalRoot, e1, hq, sweptRes]
    have hh : h' = g := by simp only [h', hr]
    rw [hr, hh]
    exact ⟨by simp, e2, S.kids, S.par_gone, S.par, fun i => ⟨S.tag i, S.flags i, S.link i⟩, fun i => by simp [S.value], K.wf, K.forest, K.wf.aligned p⟩
  | false =>
    cases keep with
    | true =>
      have hr : clearLocal h p true = (g, .ok ()) := by simp [clearLocal, hl, clearLocalRoot, e1, hq, sweptRes]
      have hh : h' = g := by simp only [h', hr]
      rw [hr, hh]
      exact ⟨by simp, e2, S.kids, S.par_gone, S.par, fun i => ⟨S.tag i, S.flags i, S.link i⟩, fun i => by simp [S.value], K.wf, K.forest, K.wf.aligned p⟩
    | false =>
      have hr : clearLocal h p false = (g.modify p fun n => { n with value := .noValue }, .ok ()) := by simp [clearLocal, hl, clearLocalRoot, e1, hq, sweptRes]
      have hh : h' = g.modify p fun n => { n with value := .noValue } := by simp only [h', hr]
      have E := DataOnly.structEq (f := fun n => { n with value := .noValue }) ⟨fun _ => rfl, fun _ => rfl, fun _ => rfl, fun _ => rfl, fun _ => rfl⟩ g p
      have K' := E.keeps K (fun i => by simp only [Heap.modify]; split <;> rfl)
      have hkid : ∀ i, h'.kids i = g.kids i := fun i => by rw [hh]; simp only [Heap.kids, Heap.modify]; split <;> rfl
      have hpar : ∀ i, h'.par i = g.par i := fun i => by rw [hh]; simp only [Heap.par, Heap.modify]; split <;> rfl
      rw [← hh] at K'
      rw [hr]
      refine ⟨by simp, by rw [hkid, e2], fun i hi => by rw [hkid, S.kids i hi], fun x hx => by rw [hpar, S.par_gone x hx], fun x hx => by rw [hpar, S.par x hx], fun i => ?_, fun i => ?_,
        K'.core.wf, K'.core.forest, K'.core.wf.aligned p⟩
      · rw [← S.tag i, ← S.flags i, ← S.link i, hh]
        refine ⟨?_, ?_, ?_⟩ <;> simp only [Heap.tag, Heap.flags, Heap.modify] <;> split <;> rfl
      · rw [← S.value i, hh]
        simp only [Heap.modify]
        by_cases hi : i = p <;> simp [hi]

/-- a link root that was not loaded, with three local children -/
def localDemo : Heap := run ms0 Heap.empty [.new (.str "r") .noValue [] 0#6, .newLink (.str "L") (.int 7) [] 0#6 none [.other 1], .append 0 (.item 1), .new (.str "a") (.int 1) [] 0#6, .new (.str "b") (.int 2) [] 0#6,
  .new (.str "a") (.int 3) [] 0#6, .append 1 (.item 2), .append 1 (.item 3), .append 1 (.item 4)]

theorem localDemo_tidy : Tidy ms0 localDemo := tidy_run _ .empty (by decide +kernel)

/-- the list function on local children only -/
theorem swept_local {linked ph : Id → Bool} {loaded : Bool} : ∀ (n : Nat) (l : List Id) (add : Bool), l.length ≤ n → (∀ x ∈ l, linked x = false ∧ ph x = false) →
    (swept linked ph loaded add l).2 = (everyOther l, false)
  | _, [], _, _, _ => rfl
  | 0, _ :: _, _, hl, _ => by simp at hl
  | n + 1, [x], add, _, hx => by
    obtain ⟨a, b⟩ := hx x (by simp)
    rw [swept_last (by simp [a]) b (by simp [a])]; rfl
  | n + 1, x :: y :: r, add, hl, hx => by
    obtain ⟨a, b⟩ := hx x (by simp)
    have := swept_local (linked := linked) (ph := ph) (loaded := loaded) n r true (by simp at hl; omega) (fun z hz => hx z (by simp [hz]))
    rw [swept_two (by simp [a]) b (by simp [a]), this]; rfl

/-- C16 (partial: `local_only` promises that all local children go).  On a link root with local children only, `clear(local_only=True)` succeeds and leaves exactly the children at the positions 1, 3, 5, …; on a
link root whose only child is local it takes this one out. -/
theorem C16_local_only_partial {ms : ModelSet} {h : Heap} (R : Reach ms h) {p : Id} (hl : h.isLinkRoot p = true)
    (hx : ∀ x ∈ h.kids p, (h.flags x).has Flags.linked = false ∧ (h.flags x).has Flags.placeholder = false) (keep : Bool) :
    (clearLocal h p keep).2 = .ok () ∧ (clearLocal h p keep).1.kids p = everyOther (h.kids p) := by
  obtain ⟨a, b, _⟩ := C16_clear_local R hl keep
  rw [swept_local (h.kids p).length (h.kids p) false (le_refl _) hx] at a b
  exact ⟨a, b⟩

/-- C16, the code against the expectation: on every link root with two local children or more, `clear(local_only=True)` leaves local children behind -/
theorem C16_local_only_wrong {ms : ModelSet} {h : Heap} (R : Reach ms h) {p : Id} (hl : h.isLinkRoot p = true)
    (hx : ∀ x ∈ h.kids p, (h.flags x).has Flags.linked = false ∧ (h.flags x).has Flags.placeholder = false) (h2 : 2 ≤ (h.kids p).length) (keep : Bool) :
    (clearLocal h p keep).1.kids p ≠ [] := by
  rw [(C16_local_only_partial R hl hx keep).2]
  match h.kids p, h2 with
  | _ :: _ :: _, _ => simp [everyOther]

example : localDemo.kids 1 = [2, 3, 4] ∧ (clearLocal localDemo 1 false).2 = .ok () ∧ (clearLocal localDemo 1 false).1.kids 1 = [3] := by
  refine ⟨by decide +kernel, ?_⟩
  have := C16_local_only_partial localDemo_tidy.reach (p := 1) (by decide +kernel) (by decide +kernel) false
  rwa [show everyOther (localDemo.kids 1) = [3] by decide +kernel] at this

example : (clearLocal localDemo 1 true).1.kids 1 ≠ [] := C16_local_only_wrong localDemo_tidy.reach (by decide +kernel) (by decide +kernel) (by decide +kernel) true

/-- C16, the code against the expectation: on a loaded link root whose first child is linked, `clear(local_only=True)` is refused and takes nothing out: no local child, and the value stays. -/
theorem C16_local_only_loaded_wrong {ms : ModelSet} {h : Heap} (R : Reach ms h) {p x : Id} {r : List Id} (hl : h.isLinkRoot p = true) (hd : h.linkLoaded p = true) (hk : h.kids p = x :: r)
    (hx : (h.flags x).has Flags.linked = true) (hp : (h.flags x).has Flags.placeholder = false) (keep : Bool) :
    (clearLocal h p keep).2 = .error .permission ∧ (∀ i, (clearLocal h p keep).1.kids i = h.kids i ∧ ((clearLocal h p keep).1.node i).value = (h.node i).value) := by
  obtain ⟨a, b, c, _, _, _, d, _⟩ := C16_clear_local R hl keep
  have e : swept (fun x => (h.flags x).has Flags.linked) (fun x => (h.flags x).has Flags.placeholder) (h.linkLoaded p) false (h.kids p) = ([], x :: r, true) := by
    rw [hk]; exact swept_stop (by simp) hp (by simp [hd, hx])
  rw [e] at a b d
  refine ⟨a, fun i => ⟨?_, by rw [d i]; simp⟩⟩
  by_cases hi : i = p
  · rw [hi, b, hk]
  · exact c i hi

/-- `farDemo` after the link 7 was loaded and a local child was appended to it -/
def farLoaded : Heap := (append (loadLinks (linkEnv noFiles) false 201 farDemo 7).1 7 (.val (.int 5))).1

theorem farLoaded_tidy : Tidy ms0 farLoaded := by
  refine Tidy.step (.append 7 (.val (.int 5))) (.load noFiles false 201 7 farDemo_grown.tidy ⟨by decide +kernel, { path := [.pair (.other 1) (.int 0)] }, by decide +kernel, Or.inl rfl, Or.inr (Or.inl ⟨by decide +kernel, Or.inr rfl, fun s L => ?_⟩)⟩)
    ⟨by decide +kernel, fun i e => by simp at e⟩ rfl
  have e1 := ((C76_find noFiles farDemo_grown.tidy.reach.core.wf (p := 7) (lk := { path := [.pair (.other 1) (.int 0)] }) (by decide +kernel) (Or.inl rfl)).2 s).2 L
  have e2 := ((C76_find noFiles farDemo_grown.tidy.reach.core.wf (p := 7) (lk := { path := [.pair (.other 1) (.int 0)] }) (by decide +kernel) (Or.inl rfl)).2 1).2 farDemo_leads7
  rw [e1] at e2
  cases e2
  decide +kernel

example : (clearLocal farLoaded 7 false).2 = .error .permission ∧ (farLoaded.kids 7).length = 2 := by
  have hk : farLoaded.kids 7 = [farLoaded.kids 7 |>.head!, farLoaded.kids 7 |>.getLast!] := by decide +kernel
  exact ⟨(C16_local_only_loaded_wrong farLoaded_tidy.reach (by decide +kernel) (by decide +kernel) hk (by decide +kernel) (by decide +kernel) false).1, by decide +kernel⟩

end ITree
