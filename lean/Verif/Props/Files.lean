import Verif.Model.Files
import Verif.Props.Serialize
/-
C75: files.
-/
namespace ITree

open Json (J PV Env SErr Style Supported Txt Elems)

/-- what is assumed of gzip: packed data is unpacked again, and a text starting with `[` is no packed data (packed data starts with the byte 0x1f) -/
structure Gzip.Sound (gz : Gzip) : Prop where
  back : ∀ t, gz.unpack (gz.pack t) = some t
  plain : ∀ t, gz.unpack ('[' :: t) = none

/-- `d'` is `d` except for the file `path` -/
def OnlyFile (path : String) (d d' : Disk) : Prop := (∀ q, d'.dir q = d.dir q) ∧ ∀ q, q ≠ path → d'.file q = d.file q

/-- `C75_file_round_trip` and: stored family positions stay true -/
theorem file_round_trip {ms ms2 : ModelSet} {h h2 : Heap} (H : Reach ms h) (H2 : Reach ms2 h2) (gz : Gzip) (G : gz.Sound) (sha : List Char → List Char) (N : Names) (E : Env) (st : Style) (typeName : List Char)
    (pack calcHash overwrite chk : Bool) {x : Id} (hk : h.kids x ≠ []) (hd : Dumpable N E h x) (d : Disk) (path : String) (hdir : d.dir path = false) (ho : overwrite = true ∨ d.file path = none) :
    ∃ d' hash, Delivers (fun n => dumpFile gz sha n N E st typeName pack calcHash overwrite h x d path) (d', .ok hash) ∧ OnlyFile path d d' ∧ hash.isSome = calcHash ∧
      ∃ h3 y, loadFile heapBuilder gz sha N E chk h2 d' path = (h3, .ok y) ∧ Reach ms2 h3 ∧ Unchanged h2 h3 ∧ h3.par y = none ∧ (∀ j, Below h3 y j → h2.next ≤ j) ∧
        (h3.tree y).shape = (h.tree x).shape.restored ∧ (AllFresh h2 → AllFresh h3) := by
  obtain ⟨text, D, h3, y, l1, l2⟩ := load_shape H H2 sha N E st typeName true calcHash chk hk hd
  obtain ⟨data, D0, -⟩ := load_shape H H2 sha N E st typeName false calcHash chk hk hd
  have D1 : Delivers (fun n => dataText n N E st h x) (.ok data) := by
    obtain ⟨n0, D0⟩ := D0
    refine ⟨n0, fun n hn => ?_⟩
    have e := D0 n hn
    simp only [dumpsText, Bool.false_eq_true, if_false] at e
    obtain ⟨r, e1, e2⟩ := Option.map_eq_some_iff.1 e
    cases r with
    | error e => cases e2
    | ok t => cases e2; exact e1
  have D2 : Delivers (fun n => dumpsText sha n N E st typeName true calcHash h x) (.ok (withHeader st typeName (if calcHash then some (sha data) else none) data)) := D1.map _
  have et : withHeader st typeName (if calcHash then some (sha data) else none) data = text := by
    have := D2.unique D
    cases this; rfl
  have hx : (d.has path && !overwrite) = false := by
    rcases ho with rfl | ho
    · simp
    · simp [Disk.has, ho, hdir]
  refine ⟨d.write path (if pack then gz.pack text else text), if calcHash then some (sha data) else none, ?_, ⟨fun _ => rfl, fun q hq => ?_⟩, by cases calcHash <;> rfl, h3, y, ?_, l2⟩
  · obtain ⟨n0, D1⟩ := D1
    refine ⟨n0, fun n hn => ?_⟩
    simp only [dumpFile, hx, hdir, Bool.false_eq_true, if_false, D1 n hn, Option.map_some, et]
  · simp [Disk.write, hq]
  · have c : (gz.unpack (if pack then gz.pack text else text)).getD (if pack then gz.pack text else text) = text := by
      cases pack with
      | true => simp [G.back]
      | false =>
        have : ∃ t, text = '[' :: t := ⟨_, et.symm⟩
        obtain ⟨t, rfl⟩ := this
        simp [G.plain]
    simp only [loadFile, Disk.write, if_true, c, l1]

/-- C75 (round trip through a file). For every reachable state, every dumpable item with children, every name that is no directory and – unless overwriting is allowed – not in use: `dump` writes exactly this file, packed or
not; `load` of it – later, in any reachable state `h2`, with or without checking the hash – makes a new parentless tree of new items with the tags, values, order, structure and links of the dumped one, flags as in C33;
nothing existing changes. -/
theorem C75_file_round_trip {ms ms2 : ModelSet} {h h2 : Heap} (H : Reach ms h) (H2 : Reach ms2 h2) (gz : Gzip) (G : gz.Sound) (sha : List Char → List Char) (N : Names) (E : Env) (st : Style) (typeName : List Char)
    (pack calcHash overwrite chk : Bool) {x : Id} (hk : h.kids x ≠ []) (hd : Dumpable N E h x) (d : Disk) (path : String) (hdir : d.dir path = false) (ho : overwrite = true ∨ d.file path = none) :
    ∃ d' hash, Delivers (fun n => dumpFile gz sha n N E st typeName pack calcHash overwrite h x d path) (d', .ok hash) ∧ OnlyFile path d d' ∧ hash.isSome = calcHash ∧
      ∃ h3 y, loadFile heapBuilder gz sha N E chk h2 d' path = (h3, .ok y) ∧ Reach ms2 h3 ∧ Unchanged h2 h3 ∧ h3.par y = none ∧ (∀ j, Below h3 y j → h2.next ≤ j) ∧
        (h3.tree y).shape = (h.tree x).shape.restored := by
  obtain ⟨d', hash, D, o1, o2, h3, y, e1, e2, e3, e4, e5, e6, -⟩ := file_round_trip H H2 gz G sha N E st typeName pack calcHash overwrite chk hk hd d path hdir ho
  exact ⟨d', hash, D, o1, o2, h3, y, e1, e2, e3, e4, e5, e6⟩

/-- a disk with one file and one directory; gzip replaced by marking packed texts with a leading `z` -/
def disk0 : Disk := ⟨fun q => if q = "old" then some ['x'] else none, fun q => q = "data"⟩
def gz0 : Gzip := ⟨fun t => 'z' :: t, fun t => match t with | 'z' :: r => some r | _ => none⟩

/-- the hypotheses of `C75_file_round_trip` can be met (`dumpDemo_dumpable`) -/
example : gz0.Sound ∧ disk0.dir "new" = false ∧ disk0.file "new" = none ∧ disk0.dir "old" = false ∧ dumpDemo.kids 0 ≠ [] := ⟨⟨fun _ => rfl, fun _ => rfl⟩, by decide, by decide, by decide, by decide⟩

/-- C75 (nothing is overwritten unasked): a name in use and `overwrite=False`, or the name of a directory: FileExistsError, the disk is unchanged. -/
theorem C75_exists (gz : Gzip) (sha : List Char → List Char) (n : Nat) (N : Names) (E : Env) (st : Style) (typeName : List Char) (pack calcHash overwrite : Bool) (h : Heap) (x : Id) (d : Disk) (path : String)
    (he : d.dir path = true ∨ overwrite = false ∧ ∃ t, d.file path = some t) : dumpFile gz sha n N E st typeName pack calcHash overwrite h x d path = some (d, .error .fileExists) := by
  rcases he with he | ⟨rfl, t, ht⟩
  · cases overwrite <;> simp [dumpFile, Disk.has, he]
  · simp [dumpFile, Disk.has, ht]

/-- C75 (a failed dump writes nothing): whatever the reason – name in use, value that can not be converted –, after an exception every file is as before; and no call changes another file or a directory. -/
theorem C75_failed_dump (gz : Gzip) (sha : List Char → List Char) (n : Nat) (N : Names) (E : Env) (st : Style) (typeName : List Char) (pack calcHash overwrite : Bool) (h : Heap) (x : Id) (d d' : Disk) (path : String)
    (r : Except IOErr (Option (List Char))) (hr : dumpFile gz sha n N E st typeName pack calcHash overwrite h x d path = some (d', r)) : OnlyFile path d d' ∧ ((∃ e, r = .error e) → d' = d) := by
  simp only [dumpFile] at hr
  split at hr
  · cases hr; exact ⟨⟨fun _ => rfl, fun _ _ => rfl⟩, fun _ => rfl⟩
  · split at hr
    · cases hr; exact ⟨⟨fun _ => rfl, fun _ _ => rfl⟩, fun _ => rfl⟩
    · obtain ⟨q, -, e⟩ := Option.map_eq_some_iff.1 hr
      cases q with
      | error e' => cases e; exact ⟨⟨fun _ => rfl, fun _ _ => rfl⟩, fun _ => rfl⟩
      | ok data =>
        cases e
        exact ⟨⟨fun _ => rfl, fun q hq => by simp [Disk.write, hq]⟩, fun ⟨e, he⟩ => by cases he⟩

/-- C75 (missing files): loading a name that is not in use raises FileNotFoundError and makes nothing. -/
theorem C75_missing {σ ι : Type} (B : Builder σ ι) (gz : Gzip) (sha : List Char → List Char) (N : Names) (E : Env) (chk : Bool) (s : σ) (d : Disk) (path : String) (hf : d.file path = none) (hd : d.dir path = false) :
    loadFile B gz sha N E chk s d path = (s, .error .notFound) := by simp [loadFile, hf, hd]

end ITree
