/-!
# Core of the model: exceptions

Python exceptions, C++ exceptions and undefined behaviour of the C++ extension are values of `Err`.
-/

namespace Phik

/-- Ways a modelled function can fail.

* `value`, `type`, `key`, `index`, `unboundLocal`, `notImplemented`, `attribute`, `linAlg`, `zeroDiv`, `runtime`
  are the Python exceptions ValueError, TypeError, KeyError, IndexError, UnboundLocalError,
  NotImplementedError, AttributeError, numpy.linalg.LinAlgError, ZeroDivisionError, RuntimeError, and `assertion` is
  AssertionError
  (also math domain errors are `value`).
* `simulation` is the C++ `simulation_error` (phik/simcore/simulation.hpp:18-22).
* `overflow`, `oob`, `uninit` are undefined behaviour in the C++ extension: signed 32-bit overflow,
  array access out of bounds, read of an uninitialised variable.
* `nonfinite` means that the Python code would go on with an infinity or a NaN where the model has only
  real numbers: the model says nothing about such runs.
* `fuel` means that a loop did not finish within the number of iterations the model allows. -/
inductive Err
  | value | type | key | index | unboundLocal | notImplemented | attribute | linAlg | zeroDiv | runtime
  | assertion | simulation | overflow | oob | uninit | nonfinite | fuel
  deriving DecidableEq, Repr

end Phik
