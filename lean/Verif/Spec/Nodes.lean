import Verif.Model.Nodes

/-! # What a user expects of an edit, whatever part of a tree it starts at -/

namespace YamlSubset.Spec

open YamlInsert

/-- No edit that reports no change has changed anything, and looking values up never changes
anything. -/
structure ReportsChanges {X : Type} [YamlInsert X] (x : X) : Prop where
  find : ∀ path, (findValues path x).2 = x
  insert : ∀ path h overwrite, (insertIntoHash path h overwrite x).1 = 0 → (insertIntoHash path h overwrite x).2 = x
  remove : ∀ path, (removeFromHash path x).1 = 0 → (removeFromHash path x).2 = x
  rename : ∀ path name, (renameField path name x).1 = 0 → (renameField path name x).2 = x
  wrap : ∀ path key, (toObject path key x).1 = 0 → (toObject path key x).2 = x
  subfield : ∀ path sub fields, (moveToSubfield path sub fields x).1 = .ok 0 →
    (moveToSubfield path sub fields x).2 = x
  regroup : ∀ path old selector new keeps, (moveToMap path old selector new keeps x).1 = .ok 0 →
    (moveToMap path old selector new keeps x).2 = x

/-- Every operation on `x` is the operation on `y`, a part of it, with `put` putting the part
back. -/
structure ActsOn {X Y : Type} [YamlInsert X] [YamlInsert Y] (x : X) (y : Y) (put : Y → X) : Prop where
  find : ∀ path, (findValues path x).1 = (findValues path y).1
  insert : ∀ path h overwrite, insertIntoHash path h overwrite x =
    ((insertIntoHash path h overwrite y).1, put (insertIntoHash path h overwrite y).2)
  remove : ∀ path, removeFromHash path x = ((removeFromHash path y).1, put (removeFromHash path y).2)
  rename : ∀ path name, renameField path name x = ((renameField path name y).1, put (renameField path name y).2)
  wrap : ∀ path key, toObject path key x = ((toObject path key y).1, put (toObject path key y).2)
  subfield : ∀ path sub fields, moveToSubfield path sub fields x =
    ((moveToSubfield path sub fields y).1, put (moveToSubfield path sub fields y).2)
  regroup : ∀ path old selector new keeps, moveToMap path old selector new keeps x =
    ((moveToMap path old selector new keeps y).1, put (moveToMap path old selector new keeps y).2)

/-- With the path `path`, the operations that look at existing entries do to `x` what they do to
`y` with the path `rest`. -/
structure VisitsAs {X Y : Type} [YamlInsert X] [YamlInsert Y] (path : YamlPath) (x : X) (rest : YamlPath) (y : Y)
    (put : Y → X) : Prop where
  find : (findValues path x).1 = (findValues rest y).1
  rename : ∀ name, renameField path name x = ((renameField rest name y).1, put (renameField rest name y).2)
  wrap : ∀ key, toObject path key x = ((toObject rest key y).1, put (toObject rest key y).2)
  subfield : ∀ sub fields, moveToSubfield path sub fields x =
    ((moveToSubfield rest sub fields y).1, put (moveToSubfield rest sub fields y).2)
  regroup : ∀ old selector new keeps, moveToMap path old selector new keeps x =
    ((moveToMap rest old selector new keeps y).1, put (moveToMap rest old selector new keeps y).2)

/-- With the path `path`, the operations that look at existing entries find nothing in `x`. -/
structure VisitsNothing {X : Type} [YamlInsert X] (path : YamlPath) (x : X) : Prop where
  find : (findValues path x).1 = []
  rename : ∀ name, renameField path name x = (0, x)
  wrap : ∀ key, toObject path key x = (0, x)
  subfield : ∀ sub fields, moveToSubfield path sub fields x = (.ok 0, x)
  regroup : ∀ old selector new keeps, moveToMap path old selector new keeps x = (.ok 0, x)

/-- The operations find nothing in `x`, with any path. -/
structure Inert {X : Type} [YamlInsert X] (x : X) : Prop where
  visit : ∀ path, VisitsNothing path x
  insert : ∀ path h overwrite, insertIntoHash path h overwrite x = (0, x)
  remove : ∀ path, removeFromHash path x = (0, x)

end YamlSubset.Spec
