/-! # Python exceptions as values -/

namespace Pyblp

/-- Exception classes raised by the modelled code (messages are not modelled), for example in pyblp/primitives.py:163-245. -/
inductive PyErr where
  | valueError
  | keyError
  | typeError
  | attributeError
  | runtimeError
  | indexError
  | assertionError
  | notImplementedError
  deriving DecidableEq, Repr

end Pyblp
