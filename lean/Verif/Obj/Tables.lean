/-
The tables of the four classes of objects: /repo/src/tree.c, /repo/src/type.c,
/repo/src/vlog/vlog-node.c, /repo/src/psl/psl-node.c, and the types of items,
/repo/src/object.c:69-88.  An item is given by the number of its bit,
/repo/src/object.h:37-91; kinds are numbered in the order of the enumerations.
-/

namespace Verif.Obj.Tables

/-- `has_map`, /repo/src/tree.c:28-389: the numbers of the items that each kind has. -/
def treeItems : List (List Nat) := [
  [0, 3, 4, 5, 6, 23, 29], [0, 2, 5, 6, 9, 23, 29], [0, 1, 15, 16, 26, 49],
  [0, 12, 15, 20, 49], [0, 8, 15, 16, 20, 30], [0, 1, 15, 49], [0, 1, 15, 49],
  [0, 5, 6, 24, 49], [0, 15, 20, 49], [0, 1, 17, 24, 49], [0, 15], [0, 1, 7],
  [0, 3, 5, 11, 23, 29], [0, 7, 13, 18], [0, 1, 15], [0, 15, 19], [0, 1, 15, 49],
  [0, 3, 4, 9, 15, 16, 49], [0, 5, 6, 23], [15, 22, 49], [0, 1, 10, 54],
  [0, 1, 12, 15, 16, 28], [1, 12, 15, 49], [1, 15, 27], [0, 9, 11, 12, 20, 26, 31], [0, 14],
  [0], [0, 2, 5, 23, 29], [0, 3, 4, 5, 6, 9, 15, 16, 49], [0, 1, 15], [0, 7, 14, 45],
  [0, 1, 6], [1, 17], [0, 1, 15, 49], [0, 5, 6, 27], [0, 15], [0, 1, 9, 15, 16, 20, 26],
  [0, 3, 4, 9, 15, 16, 49], [0, 3, 4, 5, 6, 9, 15, 16, 49], [0, 1, 9], [0, 9, 12, 20],
  [0, 1, 6], [0, 3, 4, 5, 6, 11, 12], [0, 1, 5, 6], [1, 15, 49], [0, 1, 6, 45], [0, 3, 4],
  [0, 14], [0, 5, 6, 27], [0, 1, 15, 21], [15], [0, 15, 19], [0, 1, 15, 20], [1, 15], [1, 15],
  [0, 1, 15], [0, 1, 9], [1, 16, 19, 28], [1, 16, 19, 27, 28], [0, 9, 20], [0, 9, 16, 20],
  [0, 1, 5, 9, 20], [0, 9, 11, 12, 20, 26], [0, 9], [23], [0, 2, 5, 9, 29], [0, 2, 5, 15],
  [0, 23, 29], [0, 20], [16, 20, 27], [0, 1, 5, 20, 27], [0, 12, 15, 20, 28, 49],
  [0, 9, 12, 20, 28], [1, 15, 16, 51, 52], [0, 1, 15, 16, 49], [0, 15, 17, 20], [0], [0, 20],
  [0, 15], [0, 1, 15, 20], [0, 6, 49], [0, 5, 6], [0, 3, 5, 11, 20, 23, 29],
  [0, 1, 4, 15, 16, 26, 49], [0, 15], [0, 15, 20], [0, 1, 15, 16, 26, 49], [15, 20, 25, 26],
  [0, 1, 7, 16], [0, 7, 16], [0, 1, 15, 20], [0, 1, 6], [0, 3, 4, 5, 6, 9, 11, 15, 16, 20, 49],
  [0, 3, 4, 5, 6, 9, 11, 15, 16, 20, 49], [0, 15, 20], [15, 47], [0, 1, 16], [16], [0, 1, 6],
  [0, 5, 6, 22], [0, 32], [0, 11, 12, 32], [0, 15], [0, 11, 16, 20], [1, 39], [14, 15], [0, 1],
  [0, 1, 15, 16, 20], [0, 1, 6, 45], [0, 5, 15], [0, 7], [15, 20, 31], [1, 7, 15], [22],
  [0, 6], [0, 10, 54], [0, 32], [15, 32], [15, 32]]

/-- `has_map`, /repo/src/type.c:32-77: the numbers of the items that each kind has. -/
def typeItems : List (List Nat) := [
  [0, 34, 35, 38, 48], [0, 42], [0, 42], [0, 41, 42], [0, 40, 42], [0, 33, 35], [0, 43],
  [0, 36], [0, 36], [0], [0], [0, 43], [0, 16, 33, 35, 36], [0, 36, 43], [0, 12, 39]]

/-- `has_map`, /repo/src/vlog/vlog-node.c:27-195: the numbers of the items that each kind has. -/
def vlogItems : List (List Nat) := [
  [0, 4, 5, 6, 9], [0, 9, 15, 16, 20, 27], [0, 20], [0, 6, 16], [1, 6], [1, 7, 17], [1, 16],
  [0, 6], [0, 6], [0, 12], [50], [53], [0, 1, 15, 16, 27], [0, 1, 7, 17], [16, 51, 52], [14],
  [1, 6], [0, 1, 15, 27], [1], [16, 51, 52], [1, 7, 16, 17], [1, 16], [0, 7, 12, 16, 20], [16],
  [0, 9, 12], [0, 12, 20], [0, 12], [6], [], [0, 4, 5, 6, 9], [0, 6, 12, 16], [50], [16, 27],
  [0, 15], [0, 5, 15, 27], [0, 15], [0, 5], [0, 5], [12], [], [1, 6], [1, 6], [1, 6],
  [0, 5, 6], [0, 5, 6, 15], [1, 6], [0, 1, 15], [1, 51, 52], [30], [1, 12], [1, 6, 51, 52],
  [5, 6], [6], [7, 16], [7, 16], [0, 1, 15]]

/-- `has_map`, /repo/src/psl/psl-node.c:22-124: the numbers of the items that each kind has. -/
def pslItems : List (List Nat) := [
  [1, 54], [1, 16, 54], [1, 16, 54], [12, 49, 54], [1, 54], [1], [26, 32], [0, 1, 4],
  [0, 1, 4], [32], [1, 17, 49], [1], [1], [1, 17, 49], [1, 17, 49], [1, 17, 49], [12, 16],
  [1, 16, 17], [12, 20], [12, 20], [12], [12, 16], [12, 16], [1, 32], [12, 49], [12, 16],
  [12, 49], [12, 16], [12, 16], [51, 52], [1, 32], [1, 12, 16], [1, 20, 32], [0, 1]]

/-- `ITEM_IDENT`, /repo/src/object.c:69-88. -/
def itemIdent : List Nat := [0, 9]

/-- `ITEM_OBJECT`, /repo/src/object.c:69-88. -/
def itemObject : List Nat := [1, 2, 7, 10, 15, 17, 18, 20, 21, 28, 31, 32, 34, 35, 36, 38, 39, 45, 48, 51, 52, 54]

/-- `ITEM_OBJ_ARRAY`, /repo/src/object.c:69-88. -/
def itemArray : List Nat := [3, 4, 5, 6, 11, 12, 13, 14, 22, 23, 24, 25, 27, 29, 33, 40, 41, 42, 43, 47]

/-- `ITEM_INT64`, /repo/src/object.c:69-88. -/
def itemInt64 : List Nat := [8, 19]

/-- `ITEM_INT32`, /repo/src/object.c:69-88. -/
def itemInt32 : List Nat := [16, 26, 49]

/-- `ITEM_DOUBLE`, /repo/src/object.c:69-88. -/
def itemDouble : List Nat := [30]

/-- `ITEM_TEXT`, /repo/src/object.c:69-88. -/
def itemText : List Nat := [50]

/-- `ITEM_NUMBER`, /repo/src/object.c:69-88. -/
def itemNumber : List Nat := [53]

/-- `change_allowed`, /repo/src/tree.c:434-452.  The other classes allow no change. -/
def treeChanges : List (Nat × Nat) := [
  (8, 3),
  (8, 40),
  (22, 3),
  (3, 22),
  (71, 22),
  (64, 0),
  (64, 12),
  (64, 27),
  (64, 1),
  (64, 65),
  (64, 67),
  (64, 82),
  (17, 28),
  (37, 38),
  (3, 71),
  (40, 72)]

/-- `gc_roots`, /repo/src/tree.c:478-481. -/
def treeRoots : List Nat := [1, 0, 12, 18, 27, 67, 65, 64, 82]

end Verif.Obj.Tables
