import Verif.Model.FindLink
import Verif.Model.Files
/-
Links to files: `get_target_tree` loads the file with `load(file, load_links=True)` (itree_helpers.py 160-168), the loader then calls `load_links()` on the loaded tree (itree_json_serialize.py 452-453), whose links may
refer to files again.
-/
namespace ITree

open Json (Env)

/-- The files of the disk `d` as a link sees them; `crc` is the checksum of the content (itree_helpers.py 196-202).  The first argument limits the number of files that load each other and the rounds of the deep iterator; a
file that cannot be loaded raises (which exception is not told apart here). -/
def diskEnv (gz : Gzip) (sha : List Char → List Char) (N : Names) (E : Env) (crc : List Char → Nat) (d : Disk) : Nat → FileEnv
  | 0 => { load := fun h _ => (h, .error .recursion), sum := fun f => (d.file f).map crc }
  | k + 1 => {
      load := fun h f =>
        match loadFile heapBuilder gz sha N E true h d f with
        | (h3, .error _) => (h3, .error .file)
        | (h3, .ok y) => match callLoadLinks (linkEnv (diskEnv gz sha N E crc d k)) false 201 k h3 y with
          | none => (h3, .error .recursion)
          | some (h4, .error e) => (h4, .error e)
          | some (h4, .ok _) => (h4, .ok y)
      sum := fun f => (d.file f).map crc }

end ITree
