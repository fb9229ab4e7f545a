import Verif.Proofs.Reach
/-
Concrete reachable states used to show that the hypotheses of the theorems are met by non-trivial cases.
-/
namespace ITree

/-- an argument that is an object without parent and children, different from the target -/
def easyArg (h : Heap) (p : Id) : Arg → Bool
  | .item i => decide (i < h.next) && decide (h.kids i = []) && decide (i ≠ p)
  | .val _ => true

def notCrash : Except Err Id → Bool
  | .error .attribute => false
  | .error .type => false
  | _ => true

/-- a decidable sufficient condition for `Allowed` -/
def easy (h : Heap) : Call → Bool
  | .new _ _ sub _ => sub.all fun a => a.isPlain && match a with | .item i => decide (i < h.next) | .val _ => true
  | .newLink _ _ sub f _ _ => (sub.all fun a => a.isPlain && match a with | .item i => decide (i < h.next) | .val _ => true) && !f.has Flags.loadLinks
  | .append p a => decide (p < h.next) && easyArg h p a
  | .appendLeft p a => decide (p < h.next) && easyArg h p a
  | .insert p (some (.int k)) a => decide (p < h.next) && easyArg h p a && decide (-((h.kids p).length : Int) ≤ k) && notCrash (insert h p (some (.int k)) a).2
  | .del _ (.int _) => true
  | .reverse _ => true
  | .rotate p _ => decide (p < h.next)
  | .sort p _ _ => decide (p < h.next)
  | .clear _ _ => true
  | .copy _ => true
  | .setTreeReadOnly _ => true
  | .setValueReadOnly _ => true
  | .setValue _ _ => true
  | .readIdx _ => true
  | .readTagIdx _ => true
  | _ => false

theorem easyArg_ok {h : Heap} {p : Id} {a : Arg} (ha : easyArg h p a = true) : ArgOK h p a := by
  rintro i rfl
  simp only [easyArg, Bool.and_eq_true, decide_eq_true_eq] at ha
  refine ⟨ha.1.1, fun _ b => ha.2 ?_⟩
  exact (below_leaf ha.1.2 b).symm

theorem easy_allowed {h : Heap} {c : Call} (hc : easy h c = true) : Allowed h c := by
  cases c with
  | new t v sub f =>
    simp only [easy, List.all_eq_true, Bool.and_eq_true] at hc
    exact ⟨fun i hi => by simpa using (hc _ hi).2, fun a ha => (hc a ha).1⟩
  | newLink t v sub f file path =>
    simp only [easy, List.all_eq_true, Bool.and_eq_true, Bool.not_eq_true'] at hc
    exact ⟨fun i hi => by simpa using (hc.1 _ hi).2, fun a ha => (hc.1 a ha).1, hc.2⟩
  | append p a => simp only [easy, Bool.and_eq_true, decide_eq_true_eq] at hc; exact ⟨hc.1, easyArg_ok hc.2⟩
  | appendLeft p a => simp only [easy, Bool.and_eq_true, decide_eq_true_eq] at hc; exact ⟨hc.1, easyArg_ok hc.2⟩
  | insert p tg a =>
    match tg, hc with
    | some (.int k), hc =>
      simp only [easy, Bool.and_eq_true, decide_eq_true_eq] at hc
      obtain ⟨⟨⟨a1, a2⟩, a3⟩, a4⟩ := hc
      refine ⟨a1, easyArg_ok a2, ?_, ?_, ?_⟩
      · rintro k' ⟨⟩; exact a3
      · intro e; rw [e] at a4; simp [notCrash] at a4
      · intro e; rw [e] at a4; simp [notCrash] at a4
    | none, hc => simp [easy] at hc
    | some (.slice _), hc => simp [easy] at hc
    | some (.key _ _), hc => simp [easy] at hc
    | some (.tag _), hc => simp [easy] at hc
    | some (.tags _), hc => simp [easy] at hc
    | some (.list _), hc => simp [easy] at hc
    | some .dots, hc => simp [easy] at hc
    | some (.filter _), hc => simp [easy] at hc
    | some (.item _), hc => simp [easy] at hc
  | del p tg =>
    rintro s rfl
    simp [easy] at hc
  | rotate p n => simp only [easy, decide_eq_true_eq] at hc; exact hc
  | sort p k r => simp only [easy, decide_eq_true_eq] at hc; exact hc
  | extend => simp [easy] at hc
  | extendLeft => simp [easy] at hc
  | extendTree => simp [easy] at hc
  | setItem => simp [easy] at hc
  | move => simp [easy] at hc
  | rename => simp [easy] at hc
  | _ => trivial

/-- all calls of a history are easy -/
def easyRun (ms : ModelSet) (h : Heap) : List Call → Bool
  | [] => true
  | c :: cs => easy h c && !c.leavesStrays && easyRun ms (step ms h c).1 cs

theorem tidy_run {ms : ModelSet} : ∀ (cs : List Call) {h : Heap}, Tidy ms h → easyRun ms h cs = true → Tidy ms (run ms h cs) := by
  intro cs
  induction cs with
  | nil => intro h T _; exact T
  | cons c cs ih =>
    intro h T hc
    simp only [easyRun, Bool.and_eq_true, Bool.not_eq_true'] at hc
    exact ih (T.step c (easy_allowed hc.1.1) hc.1.2) hc.2

theorem Tidy.reach {ms : ModelSet} {h : Heap} (T : Tidy ms h) : Reach ms h := by
  induction T with
  | empty => exact .empty
  | step c _ ha _ ih => exact ih.step c ha
  | load fe force n p _ M ih => exact ih.load fe force n p M
  | more m _ ok _ ih => exact ih.more m ok

/-- value models accept everything -/
def ms0 : ModelSet := fun _ v => some v

/-- root 0 with children 1 (tag A), 2 (tag B), 3 (tag A), 5 (NoTag); item 4 below item 1 -/
def demoCalls : List Call :=
  [.new (.other 0) .noValue [] 0#6, .new (.other 1) (.int 1) [] 0#6, .new (.other 2) (.int 2) [] 0#6, .new (.other 1) (.int 3) [] 0#6,
   .append 0 (.item 1), .append 0 (.item 2), .append 0 (.item 3), .append 1 (.val (.int 7)), .append 0 (.val (.int 9)),
   .new (.other 1) (.int 6) [] 0#6]
/-- the demo state; item 6 (tag A) is free -/
def demo : Heap := run ms0 Heap.empty demoCalls

theorem demo_tidy : Tidy ms0 demo := tidy_run _ .empty (by decide)
theorem demo_core : Core demo := demo_tidy.reach.core

example : demo.kids 0 = [1, 2, 3, 5] ∧ demo.kids 1 = [4] ∧ demo.next = 7 ∧ demo.par 6 = none := by decide

end ITree
